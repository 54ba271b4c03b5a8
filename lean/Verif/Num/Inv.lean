import Verif.Safe.Gates
import Mathlib.Analysis.Complex.Norm
import Mathlib.Analysis.Complex.Basic
import Mathlib.Tactic.Linarith
import Mathlib.Tactic.Positivity
import Mathlib.Tactic.NormNum
/-!
# Numerical accuracy: laws of rounded weights, denotation in `ℂ`, invariant

`NumW` bounds the error of every operation of `struct Complex` (dd.h 22-140) by one number `eps`, which covers both the
rounding errors and the snapping of weights to zero, to one, or to a stored weight (`TOLERANCE`, dd.h 23).  `Verif/Num/Float`
shows that `double` arithmetic satisfies these laws.
-/

set_option linter.unusedSectionVars false
set_option linter.unusedVariables false
set_option linter.unusedSimpArgs false

namespace QDD

/-- Weights that stand for complex numbers, with operations accurate up to `eps`. -/
class NumW (W : Type) [WOps W] [RoundW W] where
  val : W → ℂ
  eps : ℝ
  /-- the number `norm2` computes (dd.h 138-140) -/
  mag : W → ℝ
  eps_nn : 0 ≤ eps
  eps_le : eps ≤ 1 / 10 ^ 8
  val_z : ∀ {a : W}, RoundW.Z a → val a = 0
  val_one : val WOps.one = 1
  add_err : ∀ a b : W, ‖val (WOps.add a b) - (val a + val b)‖ ≤ eps * (1 + ‖val a‖ + ‖val b‖)
  mul_err : ∀ a b : W, ‖val (WOps.mul a b) - val a * val b‖ ≤ eps * (1 + ‖val a‖ * ‖val b‖)
  lt_iff : ∀ a b : W, WOps.lt a b = true ↔ mag a < mag b
  mag_le : ∀ {a b : W}, WOps.az b = false → mag a ≤ mag b → ‖val a‖ ≤ (1 + eps) * ‖val b‖
  mag_le0 : ∀ {a b : W}, WOps.az b = true → mag a ≤ mag b → ‖val a‖ ≤ 2 * eps
  div_err : ∀ {a b : W}, WOps.az b = false → mag a ≤ mag b → ‖val (WOps.div a b) - val a / val b‖ ≤ eps
  az_small : ∀ {a : W}, WOps.az a = true → ‖val a‖ ≤ eps
  az_ne : ∀ {a : W}, WOps.az a = false → val a ≠ 0
  ae_close : ∀ {a b : W}, WOps.ae a b = true → ‖val a - val b‖ ≤ eps
  nz_small : ∀ {a : W}, WOps.nz a = true → ‖val a‖ ≤ eps
  /-- a weight divided by itself is one, up to the tolerance -/
  div_self_one : ∀ {a : W}, WOps.az a = false → WOps.aone (WOps.div a a) = true

namespace Num
open RoundW NumW Prog Safe
variable {W : Type} [WOps W] [RoundW W] [NumW W]

local notation "ε" => NumW.eps W

/-- Bound on the weights stored in nodes. -/
noncomputable def bet (W : Type) [WOps W] [RoundW W] [NumW W] : ℝ := 1 + 2 * NumW.eps W

theorem bet_ge : 1 ≤ bet W := by have := eps_nn (W := W); unfold bet; linarith
theorem bet_pos : 0 < bet W := lt_of_lt_of_le one_pos bet_ge
theorem pow_bet_ge (k : Nat) : 1 ≤ bet W ^ k := one_le_pow₀ bet_ge
theorem pow_bet_pos (k : Nat) : 0 < bet W ^ k := pow_pos bet_pos k

/-- A bound on a product of up to `200` weights of nodes. -/
theorem pow_bet_le {k : Nat} (hk : k ≤ 202) : bet W ^ k ≤ 1001 / 1000 := by
  have h : bet W ≤ 1 + 2 / 10 ^ 8 := by have := eps_le (W := W); unfold bet; linarith
  calc bet W ^ k ≤ bet W ^ 202 := pow_le_pow_right₀ bet_ge hk
    _ ≤ (1 + 2 / 10 ^ 8) ^ 202 := pow_le_pow_left₀ bet_pos.le h _
    _ ≤ _ := by norm_num

/-! ## Denotation -/

/-- Amplitudes of a vector node at level `k`: the product of the stored weights along the path. -/
noncomputable def vp (mem : Nat → Option (VNode W)) : Nat → Option Nat → Nat → ℂ
  | 0, _, _ => 1
  | _ + 1, none, _ => 1
  | k + 1, some p, i => match mem p with
    | none => 0
    | some nd => val (nd.child (i.testBit k)).w * vp mem k (nd.child (i.testBit k)).n i

/-- Amplitude `i` of the vector edge `e` read as a `k`-qubit vector. -/
noncomputable def vd (s : St W) (k : Nat) (e : Edge W) (i : Nat) : ℂ := val e.w * vp s.vt.mem k e.n i

/-- Entries of a matrix node read as a `2^k × 2^k` matrix; skipped levels are identities. -/
noncomputable def mp (mem : Nat → Option (MNode W)) : Nat → Option Nat → Nat → Nat → ℂ
  | 0, _, _, _ => 1
  | k + 1, none, i, j => if i.testBit k = j.testBit k then mp mem k none i j else 0
  | k + 1, some p, i, j => match mem p with
    | none => 0
    | some nd =>
      if nd.v = (k : Int) then
        val (nd.child (i.testBit k) (j.testBit k)).w * mp mem k (nd.child (i.testBit k) (j.testBit k)).n i j
      else if i.testBit k = j.testBit k then mp mem k (some p) i j else 0

/-- Entry `(i, j)` of the matrix edge `e` read as a `k`-qubit matrix. -/
noncomputable def md (s : St W) (k : Nat) (e : Edge W) (i j : Nat) : ℂ := val e.w * mp s.mt.mem k e.n i j

theorem vp_congr (mem : Nat → Option (VNode W)) : ∀ k n {i i'}, LowEq k i i' → vp mem k n i = vp mem k n i'
  | 0, _, _, _, _ => rfl
  | k + 1, none, _, _, _ => rfl
  | k + 1, some p, i, i', h => by
    simp only [vp]
    cases mem p with
    | none => rfl
    | some nd =>
      simp only [h k (Nat.lt_succ_self k)]
      rw [vp_congr mem k _ (fun b hb => h b (by omega))]

theorem mp_congr (mem : Nat → Option (MNode W)) : ∀ k n {i i' j j'}, LowEq k i i' → LowEq k j j' →
    mp mem k n i j = mp mem k n i' j'
  | 0, _, _, _, _, _, _, _ => rfl
  | k + 1, none, i, i', j, j', h, h' => by
    simp only [mp, h k (Nat.lt_succ_self k), h' k (Nat.lt_succ_self k)]
    rw [mp_congr mem k _ (fun b hb => h b (by omega)) (fun b hb => h' b (by omega))]
  | k + 1, some p, i, i', j, j', h, h' => by
    simp only [mp]
    cases mem p with
    | none => rfl
    | some nd =>
      simp only [h k (Nat.lt_succ_self k), h' k (Nat.lt_succ_self k)]
      rw [mp_congr mem k _ (fun b hb => h b (by omega)) (fun b hb => h' b (by omega)),
        mp_congr mem k (some p) (fun b hb => h b (by omega)) (fun b hb => h' b (by omega))]

theorem vd_congr (s : St W) (k : Nat) (e : Edge W) {i i'} (h : LowEq k i i') : vd s k e i = vd s k e i' := by
  unfold vd; rw [vp_congr _ _ _ h]

theorem md_congr (s : St W) (k : Nat) (e : Edge W) {i i' j j'} (h : LowEq k i i') (h' : LowEq k j j') :
    md s k e i j = md s k e i' j' := by
  unfold md; rw [mp_congr _ _ _ h h']

theorem val_zero : val (WOps.zero : W) = 0 := val_z z_zero

@[simp] theorem vd_zeroE (s : St W) (k i : Nat) : vd s k (zeroE : Edge W) i = 0 := by
  simp [vd, zeroE, val_zero]

@[simp] theorem md_zeroE (s : St W) (k i j : Nat) : md s k (zeroE : Edge W) i j = 0 := by
  simp [md, zeroE, val_zero]

theorem vd_z (s : St W) (k i : Nat) {e : Edge W} (h : Z e.w) : vd s k e i = 0 := by
  simp [vd, val_z h]

section stable
variable {env : Env W}

/-- Amplitudes do not change as the tables grow. -/
theorem vp_ext {s s' : St W} (hi : Safe.Inv env s) (he : Grow env s s') : ∀ {k n}, (VPtr env s k n ∨ n = none) →
    ∀ i, vp s'.vt.mem k n i = vp s.vt.mem k n i
  | 0, _, _, _ => by simp [vp]
  | k + 1, none, _, _ => rfl
  | k + 1, some p, h, i => by
    rcases h with (⟨h, _⟩ | ⟨q, nd, h1, h2, h3⟩) | h
    · cases h
    · cases h1
      have h2' := he.1 _ _ h2
      simp only [vp, h2.1, h2'.1]
      have hv : nd.v = (k : Int) := by push_cast at h3; omega
      rw [vp_ext hi he ((hi.vchild h2 _ hv).imp id (·.2))]
    · cases h

theorem vd_ext {s s' : St W} (hi : Safe.Inv env s) (he : Grow env s s') {k e} (h : VLv env s k e) (i : Nat) :
    vd s' k e i = vd s k e i := by
  unfold vd; rw [vp_ext hi he (h.imp id (·.2))]

/-- Entries do not change as the tables grow. -/
theorem mp_ext {s s' : St W} (hi : Safe.Inv env s) (he : Grow env s s') : ∀ {k n}, MReg env s n →
    ∀ i j, mp s'.mt.mem k n i j = mp s.mt.mem k n i j
  | 0, _, _, _, _ => by simp [mp]
  | k + 1, none, h, i, j => by simp only [mp]; rw [mp_ext hi he h]
  | k + 1, some p, h, i, j => by
    have h' := h
    rcases h with h | ⟨q, nd, h1, h2⟩
    · cases h
    · cases h1
      have h2' := he.2 _ _ h2
      simp only [mp, h2.1, h2'.1]
      split
      · next hv => rw [mp_ext hi he (hi.mchild h2 _ _ hv).reg]
      · rw [mp_ext hi he h']

theorem md_ext {s s' : St W} (hi : Safe.Inv env s) (he : Grow env s s') {k} {e : Edge W} (h : MReg env s e.n) (i j : Nat) :
    md s' k e i j = md s k e i j := by
  unfold md; rw [mp_ext hi he h]

end stable

/-! ## Support of the rows of a matrix diagram -/

variable (env : Env W)

/-- Every row of the `k`-level matrix diagram `n` has at most `N` paths that do not end in a zero edge. -/
def Sup (s : St W) : Nat → Option Nat → Nat → Prop
  | 0, n, N => n = none ∧ 1 ≤ N
  | k + 1, n, N => (MLv env s k n ∧ Sup s k n N) ∨ ∃ p nd, n = some p ∧ UTable.Reg env.hm s.mt p nd ∧ nd.v = (k : Int) ∧
      1 ≤ N ∧ ∃ M : Bool → Bool → Nat, (∀ r c, nd.child r c = zeroE ∨ Sup s k (nd.child r c).n (M r c)) ∧
        ∀ r, M r false + M r true ≤ N

variable {env}

theorem Sup.ext {s s' : St W} (he : Grow env s s') : ∀ {k n N}, Sup env s k n N → Sup env s' k n N
  | 0, _, _, h => h
  | k + 1, n, N, h => by
    rcases h with ⟨h1, h2⟩ | ⟨p, nd, h1, h2, h3, h0, M, h4, h5⟩
    · exact .inl ⟨h1.ext he, Sup.ext he h2⟩
    · exact .inr ⟨p, nd, h1, he.2 _ _ h2, h3, h0, M, fun r c => (h4 r c).imp id (Sup.ext he), h5⟩

theorem Sup.mono {s : St W} : ∀ {k n N N'}, Sup env s k n N → N ≤ N' → Sup env s k n N'
  | 0, _, _, _, h, hN => ⟨h.1, h.2.trans hN⟩
  | k + 1, n, N, N', h, hN => by
    rcases h with ⟨h1, h2⟩ | ⟨p, nd, h1, h2, h3, h0, M, h4, h5⟩
    · exact .inl ⟨h1, Sup.mono h2 hN⟩
    · exact .inr ⟨p, nd, h1, h2, h3, h0.trans hN, M, h4, fun r => (h5 r).trans hN⟩

theorem Sup.lv {s : St W} : ∀ {k n N}, Sup env s k n N → MLv env s k n
  | 0, _, _, h => .inl h.1
  | k + 1, n, N, h => by
    rcases h with ⟨h1, h2⟩ | ⟨p, nd, h1, h2, h3, _⟩
    · exact h1.mono (Nat.le_succ k)
    · exact .inr ⟨p, nd, h1, h2, by push_cast; omega⟩

theorem Sup.one_le {s : St W} : ∀ {k n N}, Sup env s k n N → 1 ≤ N
  | 0, _, _, h => h.2
  | k + 1, n, N, h => by
    rcases h with ⟨h1, h2⟩ | ⟨p, nd, h1, h2, h3, h0, _⟩
    · exact Sup.one_le h2
    · exact h0

/-- The trivial bound. -/
theorem Sup.full {s : St W} (hi : Safe.Inv env s) : ∀ {k n}, MLv env s k n → Sup env s k n (2 ^ k)
  | 0, n, h => ⟨h.term hi, le_refl _⟩
  | k + 1, n, h => by
    have skip : MLv env s k n → Sup env s (k + 1) n (2 ^ (k + 1)) := fun h =>
      .inl ⟨h, (Sup.full hi h).mono (Nat.pow_le_pow_right (by decide) (Nat.le_succ k))⟩
    rcases h with h | ⟨p, nd, h1, h2, h3⟩
    · exact skip (.inl h)
    · by_cases hv : nd.v = (k : Int)
      · exact .inr ⟨p, nd, h1, h2, hv, Nat.one_le_two_pow, fun _ _ => 2 ^ k, fun r c => .inr (Sup.full hi (hi.mchild h2 r c hv)), fun r => by
          show 2 ^ k + 2 ^ k ≤ 2 ^ (k + 1)
          rw [Nat.pow_succ]; omega⟩
      · exact skip (.inr ⟨p, nd, h1, h2, by push_cast at h3; omega⟩)

/-! ## Supported edges -/

variable (env) in
/-- A matrix edge with at most `N` paths in every row. -/
def MOk (s : St W) (k : Nat) (e : Edge W) (N : Nat) : Prop := (Z e.w ∧ e.n = none) ∨ Sup env s k e.n N

theorem MOk.ext {s s' : St W} (he : Grow env s s') {k e N} (h : MOk env s k e N) : MOk env s' k e N :=
  h.imp id (Sup.ext he)

theorem MOk.mono {s : St W} {k e N N'} (h : MOk env s k e N) (hN : N ≤ N') : MOk env s k e N' :=
  h.imp id (·.mono hN)

theorem MOk.lv {s : St W} {k e N} (h : MOk env s k e N) : MLv env s k e.n := by
  rcases h with h | h
  · exact .inl h.2
  · exact h.lv

theorem MOk.zero (s : St W) (k N) : MOk env s k zeroE N := .inl ⟨z_zero, rfl⟩

theorem MOk.full {s : St W} (hi : Safe.Inv env s) {k} {e : Edge W} (h : MLv env s k e.n) : MOk env s k e (2 ^ k) :=
  .inr (Sup.full hi h)

/-! ## Invariant -/

/-- Error bound of a vector sum at level `k`, for operands with weights up to `M` : `A k * (1 + M)`. -/
noncomputable def A (W : Type) [WOps W] [RoundW W] [NumW W] (k : Nat) : ℝ := 40 * NumW.eps W * (k + 1)

/-- Error bound of a matrix-vector product of nodes at level `k` with row support `N`: `N * D k`. -/
noncomputable def D (W : Type) [WOps W] [RoundW W] [NumW W] (k : Nat) : ℝ := 100 * NumW.eps W * (k + 1) ^ 2

variable (env) in
/-- `e` is a `k`-qubit vector edge whose amplitudes are within `δ` of `F`. -/
def VApx (s : St W) (k : Nat) (e : Edge W) (F : Nat → ℂ) (δ : ℝ) : Prop :=
  VLv env s k e ∧ ∀ i, ‖vd s k e i - F i‖ ≤ δ

variable (env) in
/-- A cached vector sum is accurate. -/
def AVNum (s : St W) (e : AEnt W) : Prop :=
  ∃ k, VPtr env s k e.lhs.n ∧ VPtr env s k e.rhs.n ∧ ∀ M, ‖val e.lhs.w‖ ≤ M → ‖val e.rhs.w‖ ≤ M →
    VApx env s k e.res (fun i => vd s k e.lhs i + vd s k e.rhs i) ((A W k - 5 * ε) * (1 + M))

variable (env) in
/-- A cached matrix-vector product is accurate. -/
def PVNum (s : St W) (l r : Option Nat) (res : Edge W) : Prop :=
  ∃ k, MLv env s k l ∧ VPtr env s k r ∧ ∀ N, Sup env s k l N →
    VApx env s k res (fun i => bsum k fun j => mp s.mt.mem k l i j * vp s.vt.mem k r j) (N * D W k)

/-- `x` is `y`, or `y` snapped to zero or to one. -/
def Rep (x y : Edge W) : Prop :=
  x = y ∨ (x = zeroE ∧ WOps.az y.w = true) ∨ (x = ⟨WOps.one, y.n⟩ ∧ WOps.aone y.w = true)

variable (env) in
/-- `y` stands for the sum of the matrix edges `l` and `r` at level `m`. -/
def AddApx (s : St W) (m : Nat) (l r y : Edge W) (α : ℝ) : Prop :=
  (∀ M, ‖val l.w‖ ≤ M → ‖val r.w‖ ≤ M → ∀ i j, ‖md s m y i j - (md s m l i j + md s m r i j)‖ ≤ α * (1 + M)) ∧
  ∀ Nl Nr, MOk env s m l Nl → MOk env s m r Nr → MOk env s m y (Nl + Nr)

variable (env) in
/-- A cached sum of matrices is accurate at every level of its operands. -/
def AMNum (s : St W) (e : AEnt W) : Prop :=
  MReg env s e.lhs.n ∧ MReg env s e.rhs.n ∧ ∃ y, Rep e.res y ∧ ∀ m ≤ NQUBITS, MLv env s m e.lhs.n → MLv env s m e.rhs.n →
    AddApx env s m e.lhs e.rhs y (A W m - 5 * ε)

/-- Entries of the product of two matrix nodes. -/
noncomputable def mulF (s : St W) (m : Nat) (l r : Option Nat) (i j : Nat) : ℂ :=
  bsum m fun c => mp s.mt.mem m l i c * mp s.mt.mem m r c j

variable (env) in
/-- `y` stands for the product of the matrix nodes `l` and `r` at level `m`. -/
def MulApx (s : St W) (m : Nat) (l r : Option Nat) (y : Edge W) : Prop :=
  ∀ Nl Nr, Sup env s m l Nl → Sup env s m r Nr →
    (∀ i j, ‖md s m y i j - mulF s m l r i j‖ ≤ Nl * D W m) ∧ MOk env s m y (Nl * Nr)

variable (env) in
/-- A cached product of matrices is accurate at every level of its operands. -/
def PMNum (s : St W) (l r : Option Nat) (res : Edge W) : Prop :=
  MReg env s l ∧ MReg env s r ∧ ∃ y, Rep res y ∧ ∀ m ≤ NQUBITS, MLv env s m l → MLv env s m r → MulApx env s m l r y

variable (env) in
/-- The invariant: the shape of the heap, bounds on stored weights, accuracy of the cached results. -/
structure NInv (s : St W) : Prop where
  base : Safe.Inv env s
  vw : ∀ p nd, UTable.Reg env.hv s.vt p nd → ∀ b, ‖val (nd.child b).w‖ ≤ bet W ∧
    (WOps.az (nd.child b).w = true → nd.child b = zeroE)
  mw : ∀ p nd, UTable.Reg env.hm s.mt p nd → ∀ r c, ‖val (nd.child r c).w‖ ≤ bet W ∧
    (WOps.az (nd.child r c).w = true → nd.child r c = zeroE)
  mu : ∀ p nd, UTable.Reg env.hm s.mt p nd → ∃ r c, (nd.child r c).w = WOps.one
  av : ∀ tid lv key e, s.av tid lv key = some e → AVNum env s e
  cv : ∀ tid lv key b, s.cv tid lv key = some b → ∀ e ∈ b, e.valid = true →
    ∃ x, e.res = some x ∧ PVNum env s e.lhs e.rhs x
  am : ∀ tid lv key e, s.am tid lv key = some e → AMNum env s e
  cm : ∀ tid lv key b, s.cm tid lv key = some b → ∀ e ∈ b, e.valid = true →
    ∃ x, e.res = some x ∧ PMNum env s e.lhs e.rhs x

variable (env) in
/-- The rely/guarantee world. -/
def nworld : Prog.World (St W) := ⟨NInv env, Grow env, Grow.refl env, fun h h' => h.trans h'⟩

theorem VApx.ext {s s' : St W} (hi : Safe.Inv env s) (he : Grow env s s') {k e F δ} (h : VApx env s k e F δ) :
    VApx env s' k e F δ := ⟨h.1.ext he, fun i => by rw [vd_ext hi he h.1]; exact h.2 i⟩

theorem VApx.congr {s : St W} {k e F G δ} (h : VApx env s k e F δ) (hG : ∀ i, F i = G i) : VApx env s k e G δ :=
  ⟨h.1, fun i => hG i ▸ h.2 i⟩

theorem VApx.mono {s : St W} {k e F δ δ'} (h : VApx env s k e F δ) (hG : δ ≤ δ') : VApx env s k e F δ' :=
  ⟨h.1, fun i => (h.2 i).trans hG⟩

theorem VPtr.lv {s : St W} {k} {e : Edge W} (h : VPtr env s k e.n) : VLv env s k e := .inl h

theorem AVNum.ext {s s' : St W} (hi : Safe.Inv env s) (he : Grow env s s') {e} (h : AVNum env s e) : AVNum env s' e := by
  obtain ⟨k, h1, h2, h3⟩ := h
  refine ⟨k, h1.ext he, h2.ext he, fun M ha hb => ((h3 M ha hb).ext hi he).congr fun i => ?_⟩
  rw [vd_ext hi he (.inl h1), vd_ext hi he (.inl h2)]

theorem VPtr.back {s s' : St W} (he : Grow env s s') {k k' n} (h : VPtr env s k n) (h' : VPtr env s' k' n) : k' = k :=
  h'.level (h.ext he)

/-- The support of a registered node does not change. -/
theorem Sup.back {s s' : St W} (hi : Safe.Inv env s) (he : Grow env s s') : ∀ {k n N}, MReg env s n → Sup env s' k n N →
    Sup env s k n N
  | 0, _, _, _, h => h
  | k + 1, n, N, hr, h => by
    rcases h with ⟨h1, h2⟩ | ⟨p, nd, h1, h2, h3, h0, M, h4, h5⟩
    · exact .inl ⟨hr.back he h1, Sup.back hi he hr h2⟩
    · subst h1
      rcases hr with hr | ⟨q, nd', e, h6⟩
      · cases hr
      · cases e
        have := reg_fun (he.2 _ _ h6) h2
        subst this
        exact .inr ⟨p, nd', rfl, h6, h3, h0, M, fun r c => (h4 r c).imp id
          (Sup.back hi he (hi.mchild h6 r c h3).reg), h5⟩

theorem PVNum.ext {s s' : St W} (hi : Safe.Inv env s) (he : Grow env s s') {l r x} (h : PVNum env s l r x) :
    PVNum env s' l r x := by
  obtain ⟨k, h1, h2, h3⟩ := h
  refine ⟨k, h1.ext he, h2.ext he, fun N hN => ((h3 N (hN.back hi he h1.reg)).ext hi he).congr fun i => ?_⟩
  refine bsum_congr fun j _ => ?_
  rw [mp_ext hi he h1.reg, vp_ext hi he (.inl h2)]

theorem MOk.back {s s' : St W} (hi : Safe.Inv env s) (he : Grow env s s') {k e N} (hr : MReg env s e.n)
    (h : MOk env s' k e N) : MOk env s k e N := h.imp id (Sup.back hi he hr)

theorem AddApx.ext {s s' : St W} (hi : Safe.Inv env s) (he : Grow env s s') {m l r y α} (hl : MLv env s m l.n)
    (hr : MLv env s m r.n) (h : AddApx env s m l r y α) : AddApx env s' m l r y α := by
  have hy : MReg env s y.n := (h.2 _ _ (.full hi hl) (.full hi hr)).lv.reg
  refine ⟨fun M a b i j => ?_, fun Nl Nr a b => (h.2 Nl Nr (a.back hi he hl.reg) (b.back hi he hr.reg)).ext he⟩
  rw [md_ext hi he hy, md_ext hi he hl.reg, md_ext hi he hr.reg]
  exact h.1 M a b i j

theorem AMNum.ext {s s' : St W} (hi : Safe.Inv env s) (he : Grow env s s') {e} (h : AMNum env s e) : AMNum env s' e := by
  obtain ⟨h1, h2, y, h3, h4⟩ := h
  exact ⟨h1.ext he, h2.ext he, y, h3, fun m hm a b => (h4 m hm (h1.back he a) (h2.back he b)).ext hi he (h1.back he a)
    (h2.back he b)⟩

theorem mulF_ext {s s' : St W} (hi : Safe.Inv env s) (he : Grow env s s') {m l r} (hl : MReg env s l) (hr : MReg env s r)
    (i j : Nat) : mulF s' m l r i j = mulF s m l r i j :=
  bsum_congr fun c _ => by rw [mp_ext hi he hl, mp_ext hi he hr]

theorem MulApx.ext {s s' : St W} (hi : Safe.Inv env s) (he : Grow env s s') {m l r y} (hl : MLv env s m l)
    (hr : MLv env s m r) (h : MulApx env s m l r y) : MulApx env s' m l r y := by
  have hy : MReg env s y.n := (h _ _ (.full hi hl) (.full hi hr)).2.lv.reg
  intro Nl Nr a b
  have h := h Nl Nr (a.back hi he hl.reg) (b.back hi he hr.reg)
  refine ⟨fun i j => ?_, h.2.ext he⟩
  rw [md_ext hi he hy, mulF_ext hi he hl.reg hr.reg]
  exact h.1 i j

theorem PMNum.ext {s s' : St W} (hi : Safe.Inv env s) (he : Grow env s s') {l r x} (h : PMNum env s l r x) :
    PMNum env s' l r x := by
  obtain ⟨h1, h2, y, h3, h4⟩ := h
  exact ⟨h1.ext he, h2.ext he, y, h3, fun m hm a b => (h4 m hm (h1.back he a) (h2.back he b)).ext hi he (h1.back he a)
    (h2.back he b)⟩

/-- Growing the tables, keeping the caches. -/
theorem NInv.grow {s s' : St W} (hi : NInv env s) (he : Grow env s s') (hb : Safe.Inv env s')
    (nv : ∀ p nd, UTable.Reg env.hv s'.vt p nd → UTable.Reg env.hv s.vt p nd ∨ ∀ b, ‖val (nd.child b).w‖ ≤ bet W ∧
      (WOps.az (nd.child b).w = true → nd.child b = zeroE))
    (nm : ∀ p nd, UTable.Reg env.hm s'.mt p nd → UTable.Reg env.hm s.mt p nd ∨ ((∀ r c, ‖val (nd.child r c).w‖ ≤ bet W ∧
      (WOps.az (nd.child r c).w = true → nd.child r c = zeroE)) ∧ ∃ r c, (nd.child r c).w = WOps.one))
    (h1 : s'.av = s.av) (h3 : s'.cv = s.cv) (h2 : s'.am = s.am) (h4 : s'.cm = s.cm) : NInv env s' where
  base := hb
  vw p nd h := (nv p nd h).elim (hi.vw p nd) id
  mw p nd h := (nm p nd h).elim (hi.mw p nd) (·.1)
  mu p nd h := (nm p nd h).elim (hi.mu p nd) (·.2)
  av tid lv key e h := (hi.av tid lv key e (h1 ▸ h)).ext hi.base he
  cv tid lv key b h e he' hv := by
    obtain ⟨x, hx, hp⟩ := hi.cv tid lv key b (h3 ▸ h) e he' hv
    exact ⟨x, hx, hp.ext hi.base he⟩
  am tid lv key e h := (hi.am tid lv key e (h2 ▸ h)).ext hi.base he
  cm tid lv key b h e he' hv := by
    obtain ⟨x, hx, hp⟩ := hi.cm tid lv key b (h4 ▸ h) e he' hv
    exact ⟨x, hx, hp.ext hi.base he⟩

/-- Changing only cache contents. -/
theorem NInv.caches {s s' : St W} (hi : NInv env s) (hb : Safe.Inv env s') (hv : s'.vt = s.vt) (hm : s'.mt = s.mt)
    (av : ∀ tid lv key e, s'.av tid lv key = some e → AVNum env s e)
    (cv : ∀ tid lv key b, s'.cv tid lv key = some b → ∀ e ∈ b, e.valid = true →
      ∃ x, e.res = some x ∧ PVNum env s e.lhs e.rhs x)
    (am : ∀ tid lv key e, s'.am tid lv key = some e → AMNum env s e)
    (cm : ∀ tid lv key b, s'.cm tid lv key = some b → ∀ e ∈ b, e.valid = true →
      ∃ x, e.res = some x ∧ PMNum env s e.lhs e.rhs x) : NInv env s' := by
  have he : Grow env s s' := ⟨by rw [hv]; exact UTable.Ext.refl _, by rw [hm]; exact UTable.Ext.refl _⟩
  refine ⟨hb, fun p nd h => hi.vw p nd (hv ▸ h), fun p nd h => hi.mw p nd (hm ▸ h),
    fun p nd h => hi.mu p nd (hm ▸ h), ?_, ?_, ?_, ?_⟩
  · intro tid lv key e h; exact (av tid lv key e h).ext hi.base he
  · intro tid lv key b h e h1 h2
    obtain ⟨x, hx, hp⟩ := cv tid lv key b h e h1 h2
    exact ⟨x, hx, hp.ext hi.base he⟩
  · intro tid lv key e h; exact (am tid lv key e h).ext hi.base he
  · intro tid lv key b h e h1 h2
    obtain ⟨x, hx, hp⟩ := cm tid lv key b h e h1 h2
    exact ⟨x, hx, hp.ext hi.base he⟩

theorem init_ninv : NInv env (St.init : St W) where
  base := Safe.init_inv
  vw p nd h := by simp [UTable.Reg, UTable.empty, St.init] at h
  mw p nd h := by simp [UTable.Reg, UTable.empty, St.init] at h
  mu p nd h := by simp [UTable.Reg, UTable.empty, St.init] at h
  av _ _ _ _ h := by cases h
  cv _ _ _ _ h := by cases h
  am _ _ _ _ h := by cases h
  cm _ _ _ _ h := by cases h

/-! ## Bounds on amplitudes and entries -/

theorem vp_le {s : St W} (hi : NInv env s) : ∀ {k n}, (VPtr env s k n ∨ n = none) → ∀ i, ‖vp s.vt.mem k n i‖ ≤ bet W ^ k
  | 0, _, _, _ => by simp [vp]
  | k + 1, none, _, _ => by simpa [vp] using pow_bet_ge (k + 1)
  | k + 1, some p, h, i => by
    rcases h with (⟨h, _⟩ | ⟨q, nd, h1, h2, h3⟩) | h
    · cases h
    · cases h1
      simp only [vp, h2.1]
      have hv : nd.v = (k : Int) := by push_cast at h3; omega
      rw [norm_mul, pow_succ, mul_comm]
      exact mul_le_mul (vp_le hi ((hi.base.vchild h2 _ hv).imp id (·.2)) i) (hi.vw _ _ h2 _).1 (norm_nonneg _)
        (pow_bet_pos k).le
    · cases h

theorem vp_le' {s : St W} (hi : NInv env s) {k n} (hk : k ≤ NQUBITS) (h : VPtr env s k n ∨ n = none) (i : Nat) :
    ‖vp s.vt.mem k n i‖ ≤ 1001 / 1000 :=
  (vp_le hi h i).trans (pow_bet_le (by unfold NQUBITS at hk; omega))

theorem vd_le {s : St W} (hi : NInv env s) {k} {e : Edge W} (hk : k ≤ NQUBITS) (h : VLv env s k e) (i : Nat) :
    ‖vd s k e i‖ ≤ 1001 / 1000 * ‖val e.w‖ := by
  unfold vd
  rw [norm_mul, mul_comm]
  exact mul_le_mul_of_nonneg_right (vp_le' hi hk (h.imp id (·.2)) i) (norm_nonneg _)

/-- Some amplitude of a node is exactly one. -/
theorem vp_unit {s : St W} (hi : NInv env s) : ∀ {k n}, VPtr env s k n → ∃ i, vp s.vt.mem k n i = 1
  | 0, _, _ => ⟨0, rfl⟩
  | k + 1, n, h => by
    rcases h with ⟨h, _⟩ | ⟨p, nd, rfl, h2, h3⟩
    · cases h
    · have hv : nd.v = (k : Int) := by push_cast at h3; omega
      obtain ⟨b, h4, h5⟩ := hi.base.un p nd h2
      rw [show nd.v.toNat = k by omega] at h5
      obtain ⟨i, hi'⟩ := vp_unit hi h5
      refine ⟨(if b then 2 ^ k else 0) + i % 2 ^ k, ?_⟩
      have hlt : i % 2 ^ k < 2 ^ k := Nat.mod_lt _ (Nat.two_pow_pos k)
      have hb : ((if b then 2 ^ k else 0) + i % 2 ^ k).testBit k = b := by
        cases b
        · simp [testBit_lt hlt]
        · simp [testBit_add hlt]
      have hlow : LowEq k ((if b then 2 ^ k else 0) + i % 2 ^ k) i := by
        intro c hc
        have : (i % 2 ^ k).testBit c = i.testBit c := by simp [hc]
        cases b
        · simp [hc]
        · simp only [if_true]; rw [lowEq_add k _ c hc, this]
      simp only [vp, h2.1, hb]
      rw [vp_congr _ _ _ hlow, hi', h4, val_one, one_mul]

/-- The weight of an edge is one of its amplitudes, so a bound on the amplitudes bounds the weight. -/
theorem weight_le {s : St W} (hi : NInv env s) {k} {e : Edge W} (h : VLv env s k e) {M : ℝ} (hM : ∀ i, ‖vd s k e i‖ ≤ M) :
    ‖val e.w‖ ≤ M := by
  rcases h with h | h
  · obtain ⟨i, hi'⟩ := vp_unit hi h
    have := hM i
    rwa [vd, hi', _root_.mul_one] at this
  · have := hM 0
    rw [val_z h.1, norm_zero]
    exact (norm_nonneg _).trans this

/-- Some entry of a matrix diagram is exactly one. -/
theorem mp_unit {s : St W} (hi : NInv env s) : ∀ {k n}, MLv env s k n → ∃ i j, mp s.mt.mem k n i j = 1
  | 0, _, _ => ⟨0, 0, rfl⟩
  | k + 1, n, h => by
    have low : ∀ i, LowEq k (i % 2 ^ k) i := fun i c hc => by simp [hc]
    have skip : MLv env s k n → (∀ i j, mp s.mt.mem (k + 1) n i j = if i.testBit k = j.testBit k then mp s.mt.mem k n i j else 0) →
        ∃ i j, mp s.mt.mem (k + 1) n i j = 1 := by
      intro h hm
      obtain ⟨i, j, hij⟩ := mp_unit hi h
      refine ⟨i % 2 ^ k, j % 2 ^ k, ?_⟩
      rw [hm, testBit_lt (Nat.mod_lt _ (Nat.two_pow_pos k)), testBit_lt (Nat.mod_lt _ (Nat.two_pow_pos k)), if_pos rfl,
        mp_congr _ _ _ (low i) (low j), hij]
    rcases h with rfl | ⟨p, nd, rfl, h2, h3⟩
    · exact skip (.inl rfl) fun i j => rfl
    · by_cases hv : nd.v = (k : Int)
      · obtain ⟨r, c, h4⟩ := hi.mu p nd h2
        obtain ⟨i, j, hij⟩ := mp_unit hi (hi.base.mchild h2 r c hv)
        have key : ∀ (b : Bool) i, ((if b then 2 ^ k else 0) + i % 2 ^ k).testBit k = b ∧
            LowEq k ((if b then 2 ^ k else 0) + i % 2 ^ k) i := by
          intro b i
          have hlt : i % 2 ^ k < 2 ^ k := Nat.mod_lt _ (Nat.two_pow_pos k)
          constructor
          · cases b
            · simp [testBit_lt hlt]
            · simp [testBit_add hlt]
          · intro c hc
            have : (i % 2 ^ k).testBit c = i.testBit c := by simp [hc]
            cases b
            · simp [hc]
            · simp only [if_true]; rw [lowEq_add k _ c hc, this]
        refine ⟨(if r then 2 ^ k else 0) + i % 2 ^ k, (if c then 2 ^ k else 0) + j % 2 ^ k, ?_⟩
        simp only [mp, h2.1, hv, if_true, (key r i).1, (key c j).1]
        rw [mp_congr _ _ _ (key r i).2 (key c j).2, hij, h4, val_one, one_mul]
      · refine skip (.inr ⟨p, nd, rfl, h2, by push_cast at h3; omega⟩) fun i j => ?_
        simp only [mp, h2.1, if_neg hv]

/-- The weight of a matrix edge is one of its entries. -/
theorem mweight_le {s : St W} (hi : NInv env s) {k} {e : Edge W} (h : MLv env s k e.n) {M : ℝ}
    (hM : ∀ i j, ‖md s k e i j‖ ≤ M) : ‖val e.w‖ ≤ M := by
  obtain ⟨i, j, hij⟩ := mp_unit hi h
  have := hM i j
  rwa [md, hij, _root_.mul_one] at this

/-- Entries of a matrix diagram are bounded. -/
theorem mp_le {s : St W} (hi : NInv env s) : ∀ {k n}, MLv env s k n → ∀ i j, ‖mp s.mt.mem k n i j‖ ≤ bet W ^ k
  | 0, _, _, _, _ => by simp [mp]
  | k + 1, n, h, i, j => by
    have hb := bet_ge (W := W)
    have hp := pow_bet_pos (W := W) k
    have skip : MLv env s k n → mp s.mt.mem (k + 1) n i j = (if i.testBit k = j.testBit k then mp s.mt.mem k n i j else 0) →
        ‖mp s.mt.mem (k + 1) n i j‖ ≤ bet W ^ (k + 1) := by
      intro h hm
      rw [hm]
      split
      · refine (mp_le hi h i j).trans ?_
        rw [pow_succ]; nlinarith
      · simpa using (pow_bet_pos (k + 1)).le
    rcases h with rfl | ⟨p, nd, rfl, h2, h3⟩
    · exact skip (.inl rfl) rfl
    · by_cases hv : nd.v = (k : Int)
      · simp only [mp, h2.1, hv, if_true]
        rw [norm_mul, pow_succ, mul_comm]
        exact mul_le_mul (mp_le hi (hi.base.mchild h2 _ _ hv) i j) (hi.mw _ _ h2 _ _).1 (norm_nonneg _) hp.le
      · refine skip (.inr ⟨p, nd, rfl, h2, by push_cast at h3; omega⟩) ?_
        simp only [mp, h2.1, if_neg hv]

theorem mp_le' {s : St W} (hi : NInv env s) {k n} (hk : k ≤ NQUBITS) (h : MLv env s k n) (i j : Nat) :
    ‖mp s.mt.mem k n i j‖ ≤ 1001 / 1000 :=
  (mp_le hi h i j).trans (pow_bet_le (by unfold NQUBITS at hk; omega))

theorem md_le {s : St W} (hi : NInv env s) {k} {e : Edge W} (hk : k ≤ NQUBITS) (h : MLv env s k e.n) (i j : Nat) :
    ‖md s k e i j‖ ≤ 1001 / 1000 * ‖val e.w‖ := by
  unfold md
  rw [norm_mul, mul_comm]
  exact mul_le_mul_of_nonneg_right (mp_le' hi hk h i j) (norm_nonneg _)

/-- Sum over the row index by halves. -/
theorem bsum_nonneg : ∀ (k : Nat) {f : Nat → ℝ}, (∀ j, 0 ≤ f j) → 0 ≤ bsum k f
  | 0, _, h => h 0
  | k + 1, _, h => add_nonneg (bsum_nonneg k h) (bsum_nonneg k fun j => h _)

theorem bsum_le : ∀ (k : Nat) {f g : Nat → ℝ}, (∀ j < 2 ^ k, f j ≤ g j) → bsum k f ≤ bsum k g
  | 0, _, _, h => h 0 (by simp)
  | k + 1, _, _, h => add_le_add (bsum_le k fun j hj => h j (by rw [Nat.pow_succ]; omega))
      (bsum_le k fun j hj => h _ (by rw [Nat.pow_succ]; omega))

theorem norm_bsum_le (k : Nat) (f : Nat → ℂ) : ‖bsum k f‖ ≤ bsum k fun j => ‖f j‖ := by
  rw [bsum_eq, bsum_eq]; exact norm_sum_le _ _

/-- Row sums of the moduli of a matrix diagram. -/
noncomputable def rowS (s : St W) (k : Nat) (n : Option Nat) (i : Nat) : ℝ := bsum k fun j => ‖mp s.mt.mem k n i j‖

theorem rowS_nonneg (s : St W) (k n i) : 0 ≤ rowS s k n i := bsum_nonneg k fun j => norm_nonneg _

/-- A row of a skipped level. -/
theorem rowS_skip {s : St W} {k : Nat} {n : Option Nat}
    (h : n = none ∨ ∃ p nd, n = some p ∧ s.mt.mem p = some nd ∧ nd.v ≠ (k : Int)) (i : Nat) :
    rowS s (k + 1) n i = rowS s k n i := by
  have hm : ∀ j, mp s.mt.mem (k + 1) n i j = if i.testBit k = j.testBit k then mp s.mt.mem k n i j else 0 := by
    intro j
    rcases h with rfl | ⟨p, nd, rfl, h1, h2⟩
    · rfl
    · simp only [mp, h1, if_neg h2]
  unfold rowS
  simp only [bsum, hm]
  have h0 : ∀ j < 2 ^ k, j.testBit k = false := fun j hj => testBit_lt hj
  have h1 : ∀ j < 2 ^ k, (2 ^ k + j).testBit k = true := fun j hj => testBit_add hj
  have hc : ∀ j, mp s.mt.mem k n i (2 ^ k + j) = mp s.mt.mem k n i j := fun j =>
    mp_congr _ _ _ (fun _ _ => rfl) (lowEq_add k j)
  cases hb : i.testBit k
  · have e1 : bsum k (fun j => ‖if false = j.testBit k then mp s.mt.mem k n i j else 0‖) =
        bsum k fun j => ‖mp s.mt.mem k n i j‖ := bsum_congr fun j hj => by simp [h0 j hj]
    have e2 : bsum k (fun j => ‖if false = (2 ^ k + j).testBit k then mp s.mt.mem k n i (2 ^ k + j) else 0‖) =
        bsum k fun _ => (0 : ℝ) := bsum_congr fun j hj => by simp [h1 j hj]
    rw [e1, e2]; simp
  · have e1 : bsum k (fun j => ‖if true = j.testBit k then mp s.mt.mem k n i j else 0‖) =
        bsum k fun _ => (0 : ℝ) := bsum_congr fun j hj => by simp [h0 j hj]
    have e2 : bsum k (fun j => ‖if true = (2 ^ k + j).testBit k then mp s.mt.mem k n i (2 ^ k + j) else 0‖) =
        bsum k fun j => ‖mp s.mt.mem k n i j‖ := bsum_congr fun j hj => by simp [h1 j hj, hc]
    rw [e1, e2]; simp

/-- A row of a node. -/
theorem rowS_node {s : St W} {k : Nat} {p : Nat} {nd : MNode W} (h : s.mt.mem p = some nd) (hv : nd.v = (k : Int)) (i : Nat) :
    rowS s (k + 1) (some p) i =
      ‖val (nd.child (i.testBit k) false).w‖ * rowS s k (nd.child (i.testBit k) false).n i +
      ‖val (nd.child (i.testBit k) true).w‖ * rowS s k (nd.child (i.testBit k) true).n i := by
  unfold rowS
  simp only [bsum, mp, h, if_pos hv]
  rw [← bsum_mul, ← bsum_mul]
  congr 1
  · refine bsum_congr fun j hj => ?_
    rw [testBit_lt hj, norm_mul]
  · refine bsum_congr fun j hj => ?_
    rw [testBit_add hj, norm_mul, mp_congr _ _ _ (fun _ _ => rfl) (lowEq_add k j)]

theorem rowS_le {s : St W} (hi : NInv env s) : ∀ {k n N}, Sup env s k n N → ∀ i, rowS s k n i ≤ N * bet W ^ k
  | 0, n, N, h, i => by
    have : (1 : ℝ) ≤ N := by exact_mod_cast h.2
    simpa [rowS, bsum, mp] using this
  | k + 1, n, N, h, i => by
    have hb := bet_ge (W := W)
    have hp := pow_bet_pos (W := W) k
    rcases h with ⟨h1, h2⟩ | ⟨p, nd, rfl, h2, h3, h0, M, h4, h5⟩
    · have ih := rowS_le hi h2 i
      rw [rowS_skip (by
        rcases h1 with h1 | ⟨p, nd, h1, h3, h4⟩
        · exact .inl h1
        · exact .inr ⟨p, nd, h1, h3.1, by omega⟩)]
      refine ih.trans ?_
      rw [pow_succ]
      have : 0 ≤ (N : ℝ) * bet W ^ k := by positivity
      nlinarith
    · rw [rowS_node h2.1 h3]
      have key : ∀ c, ‖val (nd.child (i.testBit k) c).w‖ * rowS s k (nd.child (i.testBit k) c).n i ≤
          M (i.testBit k) c * bet W ^ (k + 1) := by
        intro c
        rcases h4 (i.testBit k) c with h | h
        · rw [h, zeroE, val_zero, norm_zero, zero_mul]
          have := pow_bet_pos (W := W) (k + 1)
          positivity
        · rw [pow_succ, ← mul_assoc, mul_comm]
          exact mul_le_mul (rowS_le hi h i) (hi.mw _ _ h2 _ _).1 (norm_nonneg _) (by positivity)
      refine (add_le_add (key false) (key true)).trans ?_
      rw [← add_mul]
      refine mul_le_mul_of_nonneg_right ?_ (pow_bet_pos _).le
      exact_mod_cast h5 (i.testBit k)

theorem rowS_le' {s : St W} (hi : NInv env s) {k n N} (hk : k ≤ NQUBITS) (h : Sup env s k n N) (i : Nat) :
    rowS s k n i ≤ 1001 / 1000 * N := by
  have h1 := rowS_le hi h i
  have h2 := pow_bet_le (W := W) (k := k) (by unfold NQUBITS at hk; omega)
  have h3 : (0 : ℝ) ≤ N := Nat.cast_nonneg N
  nlinarith

end Num
end QDD
