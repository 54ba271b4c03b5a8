import Verif.Py.Iso
import Mathlib.MeasureTheory.Integral.IntervalIntegral.Basic
/-!
# Probabilities of client programs
-/

set_option linter.unusedSectionVars false
set_option linter.unusedVariables false
set_option linter.unusedSimpArgs false

namespace QDD.Py
open Spec Api Gate Finset Props MeasureTheory Client

/-- A uniform draw is below `p` with probability `p`. -/
theorem integral_step' {p A B : ℝ} (h0 : 0 ≤ p) (h1 : p ≤ 1) : IntegrableOn (fun u : ℝ => if u < p then A else B) (Set.Ico (0 : ℝ) 1) ∧
    ∫ u in Set.Ico (0 : ℝ) 1, (if u < p then A else B) = p * A + (1 - p) * B := by
  have hs : (Set.Ico (0 : ℝ) 1) = Set.Ico 0 p ∪ Set.Ico p 1 := (Set.Ico_union_Ico_eq_Ico h0 h1).symm
  have hd : Disjoint (Set.Ico (0 : ℝ) p) (Set.Ico p 1) := by
    rw [Set.disjoint_left]
    intro x hx hy
    exact absurd hx.2 (not_lt.2 hy.1)
  have e1 : Set.EqOn (fun u : ℝ => if u < p then A else B) (fun _ => A) (Set.Ico 0 p) := fun u hu => if_pos hu.2
  have e2 : Set.EqOn (fun u : ℝ => if u < p then A else B) (fun _ => B) (Set.Ico p 1) := fun u hu => if_neg (not_lt.2 hu.1)
  have i1 : IntegrableOn (fun u : ℝ => if u < p then A else B) (Set.Ico 0 p) := by
    refine (integrableOn_congr_fun e1 measurableSet_Ico).2 ?_
    exact integrableOn_const (by simp)
  have i2 : IntegrableOn (fun u : ℝ => if u < p then A else B) (Set.Ico p 1) := by
    refine (integrableOn_congr_fun e2 measurableSet_Ico).2 ?_
    exact integrableOn_const (by simp)
  refine ⟨by rw [hs]; exact i1.union i2, ?_⟩
  rw [hs, setIntegral_union hd measurableSet_Ico i1 i2, setIntegral_congr_fun measurableSet_Ico e1,
    setIntegral_congr_fun measurableSet_Ico e2, setIntegral_const, setIntegral_const]
  simp only [Measure.real, Real.volume_Ico, smul_eq_mul, sub_zero]
  rw [ENNReal.toReal_ofReal h0, ENNReal.toReal_ofReal (by linarith)]

theorem integral_step {p A B : ℝ} (h0 : 0 ≤ p) (h1 : p ≤ 1) :
    ∫ u in Set.Ico (0 : ℝ) 1, (if u < p then A else B) = p * A + (1 - p) * B := (integral_step' h0 h1).2

/-- The program is safe and satisfies `T` with probability `x`. -/
def Meets (sqrt : ℝ → ℝ) {α : Type} (p : Client α) (h : Heap ℝ) (T : Option α → Prop) (x : ℝ) : Prop :=
  Safe sqrt p h ∧ Fair sqrt T p h ∧ prob sqrt p h T = x

variable {sqrt : ℝ → ℝ} {α : Type} {T : Option α → Prop}

theorem Meets.call {c : Cmd ℝ} {k : Obs ℝ → Nat → Nat → Client α} {h h1 : Heap ℝ} {o : Obs ℝ} {x : ℝ}
    (hp : pre NQUBITS h c) (hs : step sqrt h c = some (h1, o))
    (hk : Meets sqrt (k o h1.vs.length h1.ms.length) h1 T x) : Meets sqrt (.call c k) h T x := by
  refine ⟨⟨hp, fun h2 o2 h => ?_⟩, fun h2 o2 h => ?_, ?_⟩
  · rw [hs] at h; cases h; exact hk.1
  · rw [hs] at h; cases h; exact hk.2.1
  · rw [prob, hs]; exact hk.2.2

theorem Meets.draw {k : ℝ → Client α} {h : Heap ℝ} {F : ℝ → ℝ}
    (hi : IntegrableOn F (Set.Ico (0 : ℝ) 1)) (hk : ∀ u, 0 ≤ u → u < 1 → Meets sqrt (k u) h T (F u)) :
    Meets sqrt (.draw k) h T (∫ u in Set.Ico (0 : ℝ) 1, F u) :=
  ⟨fun u h0 h1 => (hk u h0 h1).1, ⟨fun u h0 h1 => (hk u h0 h1).2.1,
    (integrableOn_congr_fun (fun u hu => (hk u hu.1 hu.2).2.2) measurableSet_Ico).2 hi⟩, setIntegral_congr_fun measurableSet_Ico fun u hu => (hk u hu.1 hu.2).2.2⟩

theorem Meets.draw2 {k : ℝ → Client α} {h : Heap ℝ} {p A B : ℝ} (h0 : 0 ≤ p) (h1 : p ≤ 1)
    (hA : ∀ u, 0 ≤ u → u < 1 → u < p → Meets sqrt (k u) h T A)
    (hB : ∀ u, 0 ≤ u → u < 1 → p ≤ u → Meets sqrt (k u) h T B) :
    Meets sqrt (.draw k) h T (p * A + (1 - p) * B) := by
  rw [← integral_step h0 h1]
  refine Meets.draw (integral_step' h0 h1).1 fun u hu0 hu1 => ?_
  by_cases hu : u < p
  · rw [if_pos hu]; exact hA u hu0 hu1 hu
  · rw [if_neg hu]; exact hB u hu0 hu1 (not_lt.1 hu)

theorem Meets.raise (h : Heap ℝ) [Decidable (T none)] : Meets sqrt (.raise : Client α) h T (if T none then 1 else 0) :=
  ⟨trivial, trivial, by rw [prob]; congr⟩

theorem Meets.ret (a : α) (h : Heap ℝ) [Decidable (T (some a))] :
    Meets sqrt (.ret a : Client α) h T (if T (some a) then 1 else 0) :=
  ⟨trivial, trivial, by rw [prob]; congr⟩

/-! ## The spec side -/

theorem nrm_nonneg (n : Nat) (f : Nat → CR) : 0 ≤ nrm n f := Finset.sum_nonneg fun i _ => by
  unfold Cx.mag2; nlinarith [mul_self_nonneg (f i).r, mul_self_nonneg (f i).i]

theorem nrm_congr {n : Nat} {f g : Nat → CR} (h : ∀ i < 2 ^ n, f i = g i) : nrm n f = nrm n g :=
  Finset.sum_congr rfl fun i hi => by rw [h i (mem_range.1 hi)]

theorem app_congr {n : Nat} {A B : Nat → Nat → CR} {f g : Nat → CR} (hA : ∀ i < 2 ^ n, ∀ j < 2 ^ n, A i j = B i j)
    (h : ∀ i < 2 ^ n, f i = g i) {i : Nat} (hi : i < 2 ^ n) : app n A f i = app n B g i :=
  Finset.sum_congr rfl fun j hj => by rw [h j (mem_range.1 hj), hA i hi j (mem_range.1 hj)]

theorem nrm_split (n q : Nat) (f : Nat → CR) : nrm n (proj q false f) + nrm n (proj q true f) = nrm n f := by
  unfold nrm proj
  rw [← Finset.sum_add_distrib]
  refine Finset.sum_congr rfl fun i _ => ?_
  cases i.testBit q <;> simp [Cx.mag2]

theorem flip_lt {n q i : Nat} (hq : q < n) (hi : i < 2 ^ n) : i ^^^ 2 ^ q < 2 ^ n :=
  Nat.xor_lt_two_pow hi (Nat.pow_lt_pow_right (by omega) hq)

/-- Multiplication of a state by a real number. -/
noncomputable def smul (a : ℝ) (f : Nat → CR) : Nat → CR := fun i => f i * ⟨a, 0⟩

theorem nrm_smul (n : Nat) (a : ℝ) (f : Nat → CR) : nrm n (smul a f) = a * a * nrm n f := by
  unfold nrm smul
  rw [Finset.mul_sum]
  refine Finset.sum_congr rfl fun i _ => ?_
  rw [Cx.mag2_mul]
  simp [Cx.mag2]; ring

theorem proj_smul (q : Nat) (b : Bool) (a : ℝ) (f : Nat → CR) : proj q b (smul a f) = smul a (proj q b f) := by
  funext i
  show (if i.testBit q = b then f i * ⟨a, 0⟩ else 0) = (if i.testBit q = b then f i else 0) * ⟨a, 0⟩
  split
  · rfl
  · rw [zero_mul]

theorem flip_smul (q : Nat) (a : ℝ) (f : Nat → CR) : flip q (smul a f) = smul a (flip q f) := rfl

theorem app_smul (n : Nat) (A : Nat → Nat → CR) (a : ℝ) (f : Nat → CR) : app n A (smul a f) = smul a (app n A f) := by
  funext i; unfold app smul
  rw [Finset.sum_mul]
  exact Finset.sum_congr rfl fun j _ => by ring

theorem expect_smul (n : Nat) (φ : (Nat → Bool) → ℝ) (a : ℝ) : ∀ (xs : List Inst) (f : Nat → CR) (val : Nat → Bool),
    expect n φ xs (smul a f) val = a * a * expect n φ xs f val := by
  intro xs
  induction xs with
  | nil => intro f val; show nrm n (smul a f) * _ = _ * (nrm n f * _); rw [nrm_smul]; ring
  | cons x xs ih =>
    intro f val
    unfold expect
    split
    · rcases hop : x.op with ⟨g, ctl⟩ | _ | ⟨hd, k, M⟩ | _ | _ | _ | _ <;> dsimp only
      · cases x.oper n with
        | none => simp
        | some A => dsimp only; rw [app_smul, ih]
      · cases x.oper n with
        | none => simp
        | some A => dsimp only; rw [app_smul, ih]
      · cases x.oper n with
        | none => simp
        | some A => dsimp only; rw [app_smul, ih]
      · exact ih f val
      · rw [proj_smul, proj_smul, ih, ih]; ring
      · rw [proj_smul, proj_smul, flip_smul, ih, ih]; ring
      · cases x.oper n with
        | none => simp
        | some A => dsimp only; rw [app_smul, ih]
    · exact ih f val

theorem expect_congr {n nc : Nat} (φ : (Nat → Bool) → ℝ) : ∀ (xs : List Inst), (∀ x ∈ xs, x.WF n nc) → ∀ {f g : Nat → CR} (val : Nat → Bool),
    (∀ i < 2 ^ n, f i = g i) → expect n φ xs f val = expect n φ xs g val := by
  intro xs
  induction xs with
  | nil => intro _ f g val h; show nrm n f * _ = nrm n g * _; rw [nrm_congr h]
  | cons x xs ih =>
    intro hwf f g val h
    have ih := fun {f g} val h => ih (fun y hy => hwf y (by simp [hy])) (f := f) (g := g) val h
    have hx := hwf x (by simp)
    have happ : ∀ A, expect n φ xs (app n A f) val = expect n φ xs (app n A g) val := fun A =>
      ih val fun i hi => app_congr (fun _ _ _ _ => rfl) h hi
    have hproj : ∀ q b i, i < 2 ^ n → proj q b f i = proj q b g i := fun q b i hi => by unfold proj; rw [h i hi]
    unfold expect
    split
    · rcases hop : x.op with ⟨g, ctl⟩ | _ | ⟨hd, k, M⟩ | _ | _ | _ | _ <;> dsimp only
      · cases x.oper n with
        | none => rfl
        | some A => exact happ A
      · cases x.oper n with
        | none => rfl
        | some A => exact happ A
      · cases x.oper n with
        | none => rfl
        | some A => exact happ A
      · exact ih val h
      · rw [ih _ (hproj _ false), ih _ (hproj _ true)]
      · have har := hx.arity
        rw [hop] at har
        have hq : x.qargs.headD 0 < n := by
          rcases hqa : x.qargs with _ | ⟨q, t⟩
          · rw [hqa] at har; simp [Op.arity] at har
          · exact hx.qubits q (by rw [hqa]; simp)
        rw [ih _ (hproj _ false), ih val (f := flip (x.qargs.headD 0) (proj (x.qargs.headD 0) true f))
          (g := flip (x.qargs.headD 0) (proj (x.qargs.headD 0) true g))
          (fun i hi => hproj _ _ _ (flip_lt hq hi))]
      · cases x.oper n with
        | none => rfl
        | some A => exact happ A
    · exact ih val h

/-- A state of norm zero contributes nothing. -/
theorem expect_zero {n nc : Nat} (φ : (Nat → Bool) → ℝ) {xs : List Inst} (hwf : ∀ x ∈ xs, x.WF n nc) {f : Nat → CR}
    (val : Nat → Bool) (h : nrm n f = 0) : expect n φ xs f val = 0 := by
  have h0 : ∀ i < 2 ^ n, f i = smul 0 f i := by
    intro i hi
    have hall := (Finset.sum_eq_zero_iff_of_nonneg (fun i _ => by
      unfold Cx.mag2; nlinarith [mul_self_nonneg (f i).r, mul_self_nonneg (f i).i])).1 h i (mem_range.2 hi)
    have hr : (f i).r = 0 ∧ (f i).i = 0 := by
      unfold Cx.mag2 at hall
      constructor <;> nlinarith [mul_self_nonneg (f i).r, mul_self_nonneg (f i).i]
    apply Cx.ext <;> simp [smul, hr.1, hr.2]
  rw [expect_congr φ xs hwf val h0, expect_smul]; ring

end QDD.Py
