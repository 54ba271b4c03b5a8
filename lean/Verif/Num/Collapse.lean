import Verif.Num.Born
/-!
# Numerical accuracy of measurement: the state after a collapse
-/

set_option linter.unusedSectionVars false
set_option linter.unusedVariables false
set_option linter.unusedSimpArgs false

namespace QDD.Num
open RoundW NumW Prog Safe
open Finset (range mem_range)
open Spec (C Vec Mat Heap Cmd Ctrl)

variable {R W : Type} [WOps W] [ROps R W] [RoundW W] [NumW W] {env : Env W}
local notation "ε" => NumW.eps W

/-! ## All qubits -/

theorem oneBit_mk {s : St W} (hs : NInv env s) {k x : Nat} (hk : k < NQUBITS) {e : Edge W}
    (h : VApx env s k e (fun i => if LowEq k i x then 1 else 0) (9 * k * ε)) :
    Sat (nworld env) (mkV env k (if x.testBit k then zeroE else e) (if x.testBit k then e else zeroE)) s
      (fun s' e => VApx env s' (k + 1) e (fun i => if LowEq (k + 1) i x then 1 else 0) (9 * (k + 1 : Nat) * ε)) := by
  classical
  have e0 := eps_nn (W := W)
  have kk := keps_le (W := W) hk.le
  have hw : ‖val e.w‖ ≤ 1001 / 1000 := by
    refine weight_le hs h.1 fun i => ?_
    have h1 := h.2 i
    have h2 : ‖(if LowEq k i x then 1 else 0 : ℂ)‖ ≤ 1 := by split <;> simp
    have h3 : ‖vd s k e i‖ ≤ ‖vd s k e i - (if LowEq k i x then 1 else 0 : ℂ)‖ + ‖(if LowEq k i x then 1 else 0 : ℂ)‖ := by
      simpa using norm_add_le (vd s k e i - (if LowEq k i x then 1 else 0 : ℂ)) (if LowEq k i x then 1 else 0 : ℂ)
    nlinarith
  have hz : ‖val (zeroE : Edge W).w‖ ≤ 1001 / 1000 := by rw [zeroE, val_zero, norm_zero]; norm_num
  generalize hone : x.testBit k = one
  have st := mkV_num (env := env) hs hk (c0 := if one then zeroE else e) (c1 := if one then e else zeroE) (M := 1001 / 1000)
    (by cases one <;> simp [h.1, zeroE_vlv]) (by cases one <;> simp [h.1, zeroE_vlv])
    (by cases one <;> simp [hw, hz]) (by cases one <;> simp [hw, hz])
  refine Sat.mono st fun s1 y hi1 he1 hx => ⟨hx.1, fun i => ?_⟩
  have h1 := hx.2 i
  have h2 : ‖vd s k (if i.testBit k = true then (if one then e else zeroE) else (if one then zeroE else e)) i -
      (if LowEq (k + 1) i x then 1 else 0 : ℂ)‖ ≤ 9 * k * ε := by
    have hsp : LowEq (k + 1) i x ↔ i.testBit k = one ∧ LowEq k i x := by
      constructor
      · exact fun g => ⟨(g k (by omega)).trans hone, fun b hb => g b (by omega)⟩
      · rintro ⟨g1, g2⟩ b hb
        by_cases e : b = k
        · subst e; rw [g1, hone]
        · exact g2 b (by omega)
    have hz0 : ‖(0 : ℂ) - 0‖ ≤ 9 * k * ε := by rw [sub_zero, norm_zero]; positivity
    rw [if_congr hsp rfl rfl]
    have h3 := h.2 i
    cases one <;> cases i.testBit k <;> simp [hz0] <;> first | positivity | simpa using h3
  have h3 := norm_sub_le_norm_sub_add_norm_sub (vd s1 (k + 1) y i)
    (vd s k (if i.testBit k = true then (if one then e else zeroE) else (if one then zeroE else e)) i) (if LowEq (k + 1) i x then 1 else 0 : ℂ)
  refine h3.trans ((add_le_add h1 h2).trans ?_)
  push_cast
  nlinarith

theorem collapseLoop_num (x : Nat) : ∀ (n i : Nat) {s : St W} {e : Edge W} (bs : List Bool), bs.length = n →
    (∀ j (b : Bool), bs[j]? = some b → x.testBit (i + j) = b) → NInv env s → i + n ≤ NQUBITS →
    VApx env s i e (fun y => if LowEq i y x then 1 else 0) (9 * i * ε) →
    Sat (nworld env) (Fl.collapseLoop env bs i e) s
      (fun s' e => VApx env s' (i + n) e (fun y => if LowEq (i + n) y x then 1 else 0) (9 * (i + n : Nat) * ε)) := by
  intro n
  induction n with
  | zero =>
    intro i s e bs hbs _ hs _ h
    rw [List.length_eq_zero_iff] at hbs
    subst hbs
    exact Sat.pure fun s' _ he => h.ext hs.base he
  | succ n ih =>
    intro i s e bs hbs hb hs hn h
    rcases bs with _ | ⟨b, bs⟩
    · cases hbs
    have hbi := hb 0 b rfl
    rw [Nat.add_zero] at hbi
    unfold Fl.collapseLoop
    rw [← hbi]
    refine Sat.bind (oneBit_mk hs (by omega) h) fun s1 e1 hi1 he1 h1 => ?_
    have := ih (i + 1) bs (by simpa using hbs) (fun j c hj => by
      have := hb (j + 1) c (by simpa using hj)
      rwa [show i + 1 + j = i + (j + 1) by omega]) hi1 (by omega) h1
    rwa [show i + 1 + n = i + (n + 1) by omega] at this

/-- The state `measureAll` leaves is the basis state it returned. -/
theorem collapseAll_near {k x : Nat} (h0 : 0 < k) (hk : k ≤ NQUBITS) (hx : x < 2 ^ k) {s : St W} (hs : NInv env s) :
    Sat (nworld env) (Fl.collapseLoop env (bitList k x) 0 oneE) s (fun s' e => VNear env s' (Spec.basis k x) 1 e) := by
  classical
  have h1 := collapseLoop_num (env := env) x k 0 (s := s) (e := oneE) (bitList k x) (by simp [bitList]) (fun j b hj => by
    unfold bitList at hj
    rw [Nat.zero_add]
    by_cases hjk : j < k
    · simpa [hjk] using hj
    · simp [hjk] at hj) hs (by omega) ⟨oneE_vlv s, fun i => by simp [vd, oneE, val_one, vp, LowEq]⟩
  refine Sat.mono h1 fun s' e _ _ h => ?_
  rw [Nat.zero_add] at h
  refine apx_near (V := Spec.basis k x) h0 hk h (fun i hi => ?_) (basis_unit hx)
  have hi : i < 2 ^ k := hi
  unfold Spec.basis
  dsimp only
  have : LowEq k i x ↔ i = x := by
    constructor
    · intro g
      apply Nat.eq_of_testBit_eq
      intro b
      by_cases hb : b < k
      · exact g b hb
      · rw [Nat.testBit_lt_two_pow (lt_of_lt_of_le hi (Nat.pow_le_pow_right (by omega) (by omega))),
          Nat.testBit_lt_two_pow (lt_of_lt_of_le hx (Nat.pow_le_pow_right (by omega) (by omega)))]
    · rintro rfl b _; rfl
  rw [if_congr this rfl rfl]
  split <;> simp

/-! ## One qubit -/

/-- The component of a vector on the basis states whose bit `q` is `b`. -/
def proj (q : Nat) (b : Bool) (f : Nat → ℂ) (i : Nat) : ℂ := if i.testBit q = b then f i else 0

theorem proj_sub (q : Nat) (b : Bool) (f g : Nat → ℂ) (i : Nat) : proj q b f i - proj q b g i = proj q b (fun i => f i - g i) i := by
  unfold proj; split <;> simp

theorem proj_n2 (k q : Nat) (b : Bool) (f : Nat → ℂ) : n2 k (proj q b f) ≤ n2 k f :=
  n2_mono fun i _ => by unfold proj; split <;> simp

theorem proj_mass (k q : Nat) (b : Bool) (f : Nat → ℂ) : n2 k (proj q b f) = √(mass k f q b) := by
  unfold n2 mass
  congr 1
  refine Finset.sum_congr rfl fun i _ => ?_
  unfold proj bitR
  split <;> simp

/-- The projector as a gate. -/
theorem proj_gateC {k q : Nat} (hq : q < k) (b : Bool) {f : Nat → ℂ} (hf : ∀ i i', LowEq k i i' → f i = f i') (i : Nat) :
    ∑ j ∈ range (2 ^ k), gate1 k (fun r c => if r = c ∧ r = nb b then (1 : ℂ) else 0) q [] i j * f j = proj q b f i := by
  have h1 := proj_gate (K := ℝ) hq b (g := fun i => ofC (f i)) (fun i i' h => by rw [hf i i' h]) i
  rw [bsum_eq] at h1
  have h2 := congrArg toC h1
  rw [toC_sum] at h2
  have h3 : toC (projV q b (fun i => ofC (f i)) i) = proj q b f i := by
    unfold projV proj; split <;> simp
  rw [h3] at h2
  rw [← h2]
  refine Finset.sum_congr rfl fun j _ => ?_
  rw [toC_mul, toC_ofC]
  congr 1
  have := toC_gate1 k (fun r c => if r = c ∧ r = nb b then (WOps.one : C ℝ) else WOps.zero) q [] i j
  rw [← Api.gate1_eq] at this
  refine Eq.trans ?_ this.symm
  congr 1
  funext r c
  split <;> simp [ExactW.one_eq, ExactW.zero_eq]

/-- The product of the projector and the state. -/
theorem projMul_near {mt : Bool} {s : St W} (hs : NInv env s) {V : Vec ℝ} {c : Nat} {e : Edge W} (hV : VNear env s V c e)
    (hb : kap W V.k * c ≤ 1) {q : Nat} (hq : q < V.k) (b : Bool) {α : Type} (g : Edge W → α) :
    Sat (nworld env) (do
      let gate ← makeGate env V.k (fun r c => if r = c ∧ r = nb b then (WOps.one : W) else WOps.zero) q []
      let x ← mvMul env mt gate e
      pure (g x)) s (fun s' y => ∃ x, y = g x ∧ VLv env s' V.k x ∧
        n2 V.k (fun i => vd s' V.k x i - proj q b (vd s V.k e) i) ≤ kap W V.k) := by
  have e0 := eps_nn (W := W)
  have hkk : (0 : ℝ) ≤ V.k := Nat.cast_nonneg _
  refine Sat.bind (makeGate_num hs hq hV.le (cs := []) (by simp) (by simp) (g := fun r c => if r = c ∧ r = nb b then (WOps.one : W) else WOps.zero)
    (u := fun r c => if r = c ∧ r = nb b then (1 : ℂ) else 0) (fun r c _ _ => ?_)) fun s1 gate hi1 he1 hg => ?_
  · split
    · rw [val_one]; simp [e0]
    · rw [val_zero]; simp [e0]
  have hV1 := hV.ext hs he1
  have hwt := hV1.wt hi1 hb
  refine Sat.bind (mvMul_num mt hi1 hV.le hg.ok hV1.lv (hg.wt.trans (wt_le hV.le)) hwt (by norm_num) le_rfl (by decide))
    fun s2 x hi2 he2 hx => Sat.pure fun s3 hi3 he3 => ⟨x, rfl, hx.1.ext he3, ?_⟩
  have hx3 := hx.ext hi2.base he3
  refine (n2_le (β := (1001 / 1000 * 2 * (2 : Nat) * D W V.k + 16 * (2 : Nat) * ε) + 20 * (2 : Nat) * ε * (V.k + 1) * (1001 / 1000 * 2)) ?_
        fun i hi => ?_).trans ?_
  · have := D_nn (W := W) V.k
    positivity
  · have h1 := hx3.2 i
    have h2 : ‖prodF s1 V.k gate e i - proj q b (vd s V.k e) i‖ ≤ 20 * (2 : Nat) * ε * (V.k + 1) * (1001 / 1000 * 2) := by
      rw [← proj_gateC hq b (f := vd s V.k e) (fun i i' h => vd_congr s V.k e h) i]
      unfold prodF
      rw [bsum_eq, ← Finset.sum_sub_distrib]
      refine (norm_sum_le _ _).trans ?_
      have h3 := hg.err i id fun j _ b _ => rfl
      rw [bsum_eq] at h3
      calc _ ≤ ∑ j ∈ range (2 ^ V.k), ‖md s1 V.k gate i j - gate1 V.k (fun r c => if r = c ∧ r = nb b then (1 : ℂ) else 0) q [] i j‖ * (1001 / 1000 * 2) := by
            refine Finset.sum_le_sum fun j _ => ?_
            rw [← vd_ext hs.base he1 hV.lv, ← sub_mul, norm_mul]
            refine mul_le_mul_of_nonneg_left ?_ (norm_nonneg _)
            have h4 : ‖vd s1 V.k e j‖ ≤ 1001 / 1000 * ‖val e.w‖ := vd_le hi1 hV.le hV1.lv j
            linarith
        _ = (∑ j ∈ range (2 ^ V.k), ‖md s1 V.k gate i j - gate1 V.k (fun r c => if r = c ∧ r = nb b then (1 : ℂ) else 0) q [] i j‖) * (1001 / 1000 * 2) := by rw [Finset.sum_mul]
        _ ≤ _ := mul_le_mul_of_nonneg_right h3 (by norm_num)
    exact (norm_sub_le_norm_sub_add_norm_sub _ _ _).trans (add_le_add h1 h2)
  · unfold kap D
    refine mul_le_mul_of_nonneg_left ?_ (Real.sqrt_nonneg _)
    have h8 : 0 ≤ ε * V.k := by positivity
    have h9 : 0 ≤ ε * V.k * V.k := by positivity
    push_cast
    nlinarith

theorem Ap.sqrt {v : ℝ} {n : Nat} {x y : ℝ} (hv : 0 ≤ v) (hx : 0 ≤ x) (hy : 0 ≤ y) (h : Ap v n 0 x y) : Ap v n 0 (√x) (√y) := by
  have h1 : (1 : ℝ) ≤ (1 + v) ^ n := one_le_pw hv n
  have h2 : √((1 + v) ^ n) ≤ (1 + v) ^ n := Real.sqrt_le_iff.2 ⟨by linarith, by nlinarith⟩
  have h3 := h.1
  have h4 := h.2
  rw [Ap]
  rw [_root_.add_zero] at h3 h4 ⊢
  rw [_root_.add_zero]
  constructor
  · refine (Real.sqrt_le_sqrt h3).trans ?_
    rw [Real.sqrt_mul hy]
    exact mul_le_mul_of_nonneg_left h2 (Real.sqrt_nonneg _)
  · refine (Real.sqrt_le_sqrt h4).trans ?_
    rw [Real.sqrt_mul hx]
    exact mul_le_mul_of_nonneg_left h2 (Real.sqrt_nonneg _)

section one
variable [NumR R W] [RoundR R W]
local notation "ρ" => NumR.rv (R := R) (W := W)
local notation "μ" => NumR.u R W
local notation "η" => NumR.eta R W
local notation "ν" => nu R W

/-- The factor the state is rescaled by. -/
theorem rescale_num {x : R} {M : ℝ} {n : Nat} (hx : 0 ≤ ρ x) (hM : 1 / 2 ^ 200 ≤ M) (hM2 : M ≤ 4) (hn : 2 * (n + 3 : Nat) * ν ≤ 1)
    (h : Ap ν n (2 ^ 220 * η) (ρ x) M) :
    |ρ (ROps.sqrt W (ROps.div W (ROps.one W) x)) - (√M)⁻¹| ≤ 2 * (n + 3 : Nat) * ν * (√M)⁻¹ := by
  have hν := nu_nn R W
  have hμ := NumR.u_nn (R := R) (W := W)
  have hη := NumR.eta_nn (R := R) (W := W)
  have hn' : 2 * (n : ℝ) * ν ≤ 1 := by
    push_cast at hn
    nlinarith
  have hM0 : 0 < M := lt_of_lt_of_le (by positivity) hM
  have ha : 2 ^ 220 * η ≤ μ / 2 ^ 600 := by
    have := NumR.eta_le (R := R) (W := W)
    calc 2 ^ 220 * η ≤ 2 ^ 220 * (μ / 2 ^ 900) := mul_le_mul_of_nonneg_left this (by positivity)
      _ = μ * (1 / 2 ^ 680) := by
        rw [show (900 : Nat) = 220 + 680 by norm_num, pow_add]
        field_simp
      _ ≤ μ * (1 / 2 ^ 600) := mul_le_mul_of_nonneg_left
        (one_div_le_one_div_of_le (by positivity) (pow_le_pow_right₀ (by norm_num) (by norm_num))) hμ
      _ = _ := by rw [mul_one_div]
  have ha2 : 2 ^ 220 * η ≤ μ * (1 / 2 ^ 210) := ha.trans (by
    rw [mul_one_div]
    exact div_le_div_of_nonneg_left hμ (by positivity) (pow_le_pow_right₀ (by norm_num) (by norm_num)))
  have ht : (1 / 2 ^ 210 : ℝ) ≤ 1 / 2 ^ 200 / 64 := by norm_num
  have habs := h.abs hν (by linarith) hx hM0.le (by positivity)
  have hμ1 : μ ≤ 1 := (NumR.u_le (R := R) (W := W)).trans (by norm_num)
  -- the probability is not tiny
  have hxM : M / 4 ≤ ρ x := by
    have h2 := h.2
    have h3 := pw_le hν n hn'
    have h4 : M ≤ (ρ x + 2 ^ 220 * η) * 2 := h2.trans (mul_le_mul_of_nonneg_left (by linarith) (by positivity))
    have h5 : 2 ^ 220 * η ≤ M / 4 := by
      refine ha2.trans ?_
      have : μ * (1 / 2 ^ 210) ≤ 1 * (1 / 2 ^ 210) := mul_le_mul_of_nonneg_right hμ1 (by positivity)
      linarith
    linarith
  have hx0 : 0 < ρ x := by linarith
  have hx16 : ρ x ≤ 10 := by
    have h2 := h.1
    have h3 := pw_le hν n hn'
    have h4 : ρ x ≤ (M + 2 ^ 220 * η) * 2 := h2.trans (mul_le_mul_of_nonneg_left (by linarith) (by positivity))
    have h5 : 2 ^ 220 * η ≤ 1 := by
      refine ha2.trans ?_
      have : μ * (1 / 2 ^ 210) ≤ 1 * (1 / 2 ^ 210) := mul_le_mul_of_nonneg_right hμ1 (by positivity)
      have : (1 / 2 ^ 210 : ℝ) ≤ 1 := by norm_num
      linarith
    linarith
  have abs1 : ∀ y : ℝ, M / 4 ≤ y → 2 ^ 220 * η ≤ ν * y := by
    intro y hy
    refine ha2.trans ?_
    unfold nu
    have : μ * (1 / 2 ^ 210) ≤ μ * (4 * y) := mul_le_mul_of_nonneg_left (by linarith) hμ
    linarith
  have h6 : Ap ν (n + 1) 0 (ρ x) M := h.absorb hν (abs1 _ hxM) (abs1 _ (by linarith))
  have h7 : Ap ν 1 0 (ρ (ROps.div W (ROps.one W) x)) (ρ (ROps.one W) / ρ x) := by
    refine div_ap' (by rw [NumR.rv_one]; norm_num) hx0 ?_
    rw [NumR.rv_one]
    refine (tiny (n := 4) (by norm_num)).trans ?_
    rw [one_div_le_one_div (by norm_num) hx0]
    linarith
  rw [NumR.rv_one, one_div] at h7
  have hd0 : 0 ≤ ρ (ROps.div W (ROps.one W) x) := NumR.div_nn (by rw [NumR.rv_one]; norm_num) hx0
  have h8 := h7.trans hν le_rfl le_rfl (h6.inv hx0 hM0 hν)
  rw [_root_.add_zero] at h8
  have h9 := h8.sqrt hν hd0 (by positivity)
  have hdbig : 1 / 2 ^ 4 * (1 / 2) ≤ ρ (ROps.div W (ROps.one W) x) := by
    have g1 := h7.half hν (by
      have := nu_le R W
      norm_num at this ⊢
      linarith) hd0
    have g2 : 1 / 2 ^ 4 ≤ (ρ x)⁻¹ := by
      rw [one_div, inv_le_inv₀ (by norm_num) hx0]; linarith
    linarith
  have h10 : Ap ν 1 0 (ρ (ROps.sqrt W (ROps.div W (ROps.one W) x))) (√(ρ (ROps.div W (ROps.one W) x))) := by
    have he := NumR.sqrt_err (W := W) _ hd0
    have hs1 : 1 / 8 ≤ √(ρ (ROps.div W (ROps.one W) x)) := by
      apply Real.le_sqrt_of_sq_le
      norm_num at hdbig ⊢
      linarith
    have hη2 := eta_big R W (y := √(ρ (ROps.div W (ROps.one W) x))) ((tiny (n := 3) (by norm_num)).trans (by norm_num at hs1 ⊢; linarith))
    refine Ap.of_err' hμ (u_8 R W) ?_ (Real.sqrt_nonneg _) hη2 he
    have := abs_le.1 he
    have hu8 := u_8 R W
    nlinarith
  have h11 := h10.trans hν le_rfl le_rfl h9
  rw [_root_.add_zero, Real.sqrt_inv, show 1 + (1 + (n + 1)) = n + 3 by omega] at h11
  have hs0 : 0 ≤ ρ (ROps.sqrt W (ROps.div W (ROps.one W) x)) := by
    have := h10.2
    rw [_root_.add_zero] at this
    by_contra hc
    have : √(ρ (ROps.div W (ROps.one W) x)) ≤ 0 := this.trans (mul_nonpos_of_nonpos_of_nonneg (by linarith) (by positivity))
    have : 0 < √(ρ (ROps.div W (ROps.one W) x)) := Real.sqrt_pos.2 (by norm_num at hdbig; linarith)
    linarith
  have := h11.abs2 hν hn hs0 (by positivity) le_rfl
  linarith

/-- The state after a collapse on one qubit. -/
theorem collapse_near {s s' : St W} (hs' : NInv env s') {V : Vec ℝ} {c c' : Nat} {e x : Edge W} (hV : VNear env s V c e)
    {E : ℝ} (hE : kap W V.k * c = E) {q : Nat} {b : Bool} (hP : E + kap W V.k ≤ √(V.marg q b) / 8)
    (hP0 : 0 < V.marg q b)
    (hlv : VLv env s' V.k x) (hx : n2 V.k (fun i => vd s' V.k x i - proj q b (vd s V.k e) i) ≤ kap W V.k)
    {y : R} {r : ℝ} (hr0 : 0 ≤ r) (hr : r ≤ 1 / 16) (hy : |ρ y - (√(mass V.k (vd s V.k e) q b))⁻¹| ≤ r * (√(mass V.k (vd s V.k e) q b))⁻¹)
    (hc' : 3 * E + 2 * kap W V.k + r ≤ √(V.marg q b) * (kap W V.k * c')) :
    VNear env s' (V.collapse Real.sqrt q b) c' ⟨WOps.mul x.w (ROps.ofReal y), x.n⟩ := by
  have e0 := eps_nn (W := W)
  have hκ := kap_nn (W := W) V.k
  have hE0 : 0 ≤ E := hE ▸ mul_nonneg hκ (Nat.cast_nonneg c)
  -- the exact state
  have hmarg := marg_mass V q b
  have hsum := mass_sum V.k (fun i => toC (V.f i)) q
  rw [hV.unit, one_pow] at hsum
  have hP1 : V.marg q b ≤ 1 := by
    rw [hmarg]
    have h0 := mass_nn V.k (fun i => toC (V.f i)) q false
    have h1 := mass_nn V.k (fun i => toC (V.f i)) q true
    cases b <;> linarith
  have hng : n2 V.k (proj q b fun i => toC (V.f i)) = √(V.marg q b) := by rw [proj_mass, ← hmarg]
  have hnf : n2 V.k (proj q b (vd s V.k e)) = √(mass V.k (vd s V.k e) q b) := proj_mass _ _ _ _
  have hsP : 0 < √(V.marg q b) := Real.sqrt_pos.2 hP0
  have hsP1 : √(V.marg q b) ≤ 1 := Real.sqrt_le_one.2 hP1
  have hfg : n2 V.k (fun i => proj q b (vd s V.k e) i - proj q b (fun i => toC (V.f i)) i) ≤ E := by
    rw [n2_congr fun i _ => proj_sub q b (vd s V.k e) (fun i => toC (V.f i)) i]
    exact (proj_n2 _ _ _ _).trans (hV.err.trans (le_of_eq hE))
  have hfgT : ∀ i, toC ((V.collapse Real.sqrt q b).f i) = (((√(V.marg q b))⁻¹ : ℝ) : ℂ) * proj q b (fun i => toC (V.f i)) i := by
    intro i
    show toC (if i.testBit q = b then V.f i * ⟨√(1 / V.marg q b), 0⟩ else 0) = _
    unfold proj
    split
    · rw [toC_mul, mul_comm]
      congr 1
      rw [one_div, Real.sqrt_inv]
      rfl
    · simp
  have hk1 := n2_le_add V.k (proj q b (vd s V.k e)) (proj q b fun i => toC (V.f i))
  have hk2 := n2_le_add V.k (proj q b fun i => toC (V.f i)) (proj q b (vd s V.k e))
  rw [n2_sub_comm V.k (proj q b fun i => toC (V.f i))] at hk2
  rw [hng, hnf] at hk1 hk2
  have h4 : n2 V.k (fun i => (((√(mass V.k (vd s V.k e) q b))⁻¹ : ℝ) : ℂ) * proj q b (vd s V.k e) i -
      toC ((V.collapse Real.sqrt q b).f i)) ≤ 2 * E / √(V.marg q b) := by
    rw [n2_congr fun i _ => by rw [hfgT i]]
    exact n2_unit_sub hnf hng (by linarith) hsP hfg
  -- the weight
  have hwx : ‖val x.w‖ ≤ 2 := by
    refine weight_le hs' hlv fun i => ?_
    have hlt : i % 2 ^ V.k < 2 ^ V.k := Nat.mod_lt _ (Nat.two_pow_pos _)
    rw [vd_congr s' V.k x (lowEq_mod' V.k i)]
    refine (le_n2 (f := fun i => vd s' V.k x i) hlt).trans ?_
    have h1 := n2_le_add V.k (fun i => vd s' V.k x i) (proj q b (vd s V.k e))
    rw [hnf] at h1
    linarith
  generalize hA : √(mass V.k (vd s V.k e) q b) = A at *
  generalize hB : √(V.marg q b) = B at *
  have hA0 : 0 < A := by linarith
  have hAB : A⁻¹ ≤ 8 / 7 * B⁻¹ := by
    rw [← div_eq_mul_inv, inv_le_comm₀ hA0 (by positivity), inv_div]
    linarith
  have hy1 : |ρ y| ≤ 5 / 4 * B⁻¹ := by
    have h1 : |ρ y| ≤ |ρ y - A⁻¹| + |A⁻¹| := by simpa using abs_add_le (ρ y - A⁻¹) A⁻¹
    rw [abs_of_pos (inv_pos.2 hA0)] at h1
    have h2 : r * A⁻¹ ≤ 1 / 16 * A⁻¹ := mul_le_mul_of_nonneg_right hr (inv_pos.2 hA0).le
    have h3 := inv_pos.2 hsP
    linarith
  refine ⟨hV.pos, hV.le, hlv.mulR _, ?_, ?_⟩
  · show n2 V.k _ = 1
    rw [n2_congr fun i _ => hfgT i, n2_smul, hng, Complex.norm_real, Real.norm_eq_abs, abs_of_pos (inv_pos.2 hsP), inv_mul_cancel₀ hsP.ne']
  · show n2 V.k (fun i => vd s' V.k ⟨WOps.mul x.w (ROps.ofReal y), x.n⟩ i - toC ((V.collapse Real.sqrt q b).f i)) ≤ kap W V.k * c'
    have t1 := n2_tri V.k (fun i => vd s' V.k ⟨WOps.mul x.w (ROps.ofReal y), x.n⟩ i) (fun i => (ρ y : ℂ) * vd s' V.k x i)
      (fun i => toC ((V.collapse Real.sqrt q b).f i))
    have t2 := n2_tri V.k (fun i => (ρ y : ℂ) * vd s' V.k x i) (fun i => (ρ y : ℂ) * proj q b (vd s V.k e) i)
      (fun i => toC ((V.collapse Real.sqrt q b).f i))
    have t3 := n2_tri V.k (fun i => (ρ y : ℂ) * proj q b (vd s V.k e) i) (fun i => ((A⁻¹ : ℝ) : ℂ) * proj q b (vd s V.k e) i)
      (fun i => toC ((V.collapse Real.sqrt q b).f i))
    have u2 : n2 V.k (fun i => (ρ y : ℂ) * vd s' V.k x i - (ρ y : ℂ) * proj q b (vd s V.k e) i) ≤ 5 / 4 * B⁻¹ * kap W V.k := by
      rw [n2_congr fun i _ => (mul_sub (ρ y : ℂ) (vd s' V.k x i) (proj q b (vd s V.k e) i)).symm, n2_smul, Complex.norm_real, Real.norm_eq_abs]
      exact mul_le_mul hy1 hx (n2_nn _ _) (by positivity)
    have u3 : n2 V.k (fun i => (ρ y : ℂ) * proj q b (vd s V.k e) i - ((A⁻¹ : ℝ) : ℂ) * proj q b (vd s V.k e) i) ≤ r := by
      have : ∀ i, (ρ y : ℂ) * proj q b (vd s V.k e) i - ((A⁻¹ : ℝ) : ℂ) * proj q b (vd s V.k e) i = ((ρ y - A⁻¹ : ℝ) : ℂ) * proj q b (vd s V.k e) i := by
        intro i; push_cast; ring
      rw [n2_congr fun i _ => this i, n2_smul, Complex.norm_real, Real.norm_eq_abs, hnf]
      calc _ ≤ r * A⁻¹ * A := mul_le_mul_of_nonneg_right hy hA0.le
        _ = r := by field_simp
    have u1 : n2 V.k (fun i => vd s' V.k ⟨WOps.mul x.w (ROps.ofReal y), x.n⟩ i - (ρ y : ℂ) * vd s' V.k x i) ≤ 1 / 100 * B⁻¹ * kap W V.k := by
      have hB1 : 1 ≤ B⁻¹ := (one_le_inv₀ hsP).2 hsP1
      refine (n2_le (β := ε * (1 + 2 * (5 / 4 * B⁻¹)) * (1001 / 1000)) (by positivity) fun i hi => ?_).trans ?_
      · unfold vd
        dsimp only
        rw [← mul_assoc, ← sub_mul, norm_mul]
        refine mul_le_mul ?_ (vp_le' hs' hV.le (hlv.imp id (·.2)) i) (norm_nonneg _) (by positivity)
        have h1 := NumW.mul_err x.w (ROps.ofReal y : W)
        rw [NumR.val_ofReal, Complex.norm_real, Real.norm_eq_abs, mul_comm (val x.w)] at h1
        refine h1.trans (mul_le_mul_of_nonneg_left ?_ e0)
        have := mul_le_mul hwx hy1 (abs_nonneg _) (by norm_num)
        linarith
      · unfold kap
        rw [mul_left_comm (1 / 100 * B⁻¹)]
        refine mul_le_mul_of_nonneg_left ?_ (Real.sqrt_nonneg _)
        have hk0 : (1 : ℝ) ≤ ((V.k : ℝ) + 1) ^ 2 := one_le_pow₀ (by have : (0 : ℝ) ≤ V.k := Nat.cast_nonneg _; linarith)
        have h1 : 1 / 100 * B⁻¹ * (1100 * ε * 1) ≤ 1 / 100 * B⁻¹ * (1100 * ε * ((V.k : ℝ) + 1) ^ 2) := by
          refine mul_le_mul_of_nonneg_left (mul_le_mul_of_nonneg_left hk0 (by positivity)) (by positivity)
        have h2 : ε * 1 ≤ ε * B⁻¹ := mul_le_mul_of_nonneg_left hB1 e0
        nlinarith
    have hfin : 2 * E / B + (126 / 100 * B⁻¹ * kap W V.k + r) ≤ kap W V.k * c' := by
      have h1 : (2 * E / B + (126 / 100 * B⁻¹ * kap W V.k + r)) * B ≤ kap W V.k * c' * B := by
        have e1 : (2 * E / B + (126 / 100 * B⁻¹ * kap W V.k + r)) * B = 2 * E + 126 / 100 * kap W V.k + r * B := by
          have : B⁻¹ * B = 1 := inv_mul_cancel₀ hsP.ne'
          calc _ = 2 * E / B * B + 126 / 100 * kap W V.k * (B⁻¹ * B) + r * B := by ring
            _ = _ := by rw [this, div_mul_cancel₀ _ hsP.ne', _root_.mul_one]
        rw [e1]
        have : r * B ≤ r := by nlinarith
        linarith
      exact le_of_mul_le_mul_right h1 hsP
    have hB1 : 1 / 100 * B⁻¹ * kap W V.k + 5 / 4 * B⁻¹ * kap W V.k = 126 / 100 * B⁻¹ * kap W V.k := by ring
    linarith

end one
end QDD.Num
