import Verif.Grover.Algebra
import Mathlib.Analysis.SpecialFunctions.Trigonometric.Bounds
import Mathlib.Analysis.SpecialFunctions.Trigonometric.Inverse
/-!
# C59: Grover search on the engine finds the marked string
-/

set_option linter.unusedSectionVars false
set_option linter.unusedVariables false
set_option linter.unusedSimpArgs false

namespace QDD.Props
open Spec Api Gate Py Py.Client QDD.Grover
open Finset (range mem_range)

/-! ## The program -/

theorem cact_nil (N q : Nat) (m : Bool → Bool → CR) : cact N q [] m = act q m := by
  funext f i
  exact if_pos (fun c hc => by cases hc)

theorem makes_had {n t : Nat} (ht : t < n + 1) (hn : n + 1 ≤ NQUBITS) : Makes (n + 1) (.gate (n + 1) Hmat t []) (had t) := by
  have := Makes.gate (g := Hmat) (cs := []) ht hn List.Pairwise.nil (fun c hc => by cases hc)
  rw [cact_nil] at this
  exact this

theorem makes_flp {n t : Nat} (ht : t < n + 1) (hn : n + 1 ≤ NQUBITS) : Makes (n + 1) (.gate (n + 1) Xmat t []) (flp t) := by
  have := Makes.gate (g := Xmat) (cs := []) ht hn List.Pairwise.nil (fun c hc => by cases hc)
  rw [cact_nil] at this
  exact this

theorem forall₂_maps {β γ : Type} {R : β → γ → Prop} {f : Nat → β} {g : Nat → γ} : ∀ (l : List Nat), (∀ i ∈ l, R (f i) (g i)) →
    List.Forall₂ R (l.map f) (l.map g)
  | [], _ => .nil
  | a :: l, h => .cons (h a (by simp)) (forall₂_maps l fun i hi => h i (by simp [hi]))

/-- What one iteration does, gate by gate. -/
noncomputable def iterOps (oracle : List Bool) (n : Nat) : List ((Nat → CR) → Nat → CR) :=
  [oracleOp oracle n, id] ++ (List.range n).map had ++ (List.range n).map flp ++
  [had (n - 1), cact (n + 1) (n - 1) (diffControls n) (fun a b => Xmat (bit a) (bit b)), had (n - 1)] ++
  (List.range n).map flp ++ (List.range n).map had

theorem pairwise_range_map (m : Nat) (p : Nat → Bool) :
    ((List.range m).map fun i => (⟨i, p i⟩ : Ctrl)).Pairwise (fun a b => a.qubit < b.qubit) := by
  rw [List.pairwise_map]
  exact List.pairwise_lt_range

theorem iter_makes {oracle : List Bool} {n : Nat} (hn0 : 0 < n) (hn : n + 1 ≤ NQUBITS) :
    List.Forall₂ (Makes (n + 1)) (iterationGates oracle n) (iterOps oracle n) := by
  have hH : List.Forall₂ (Makes (n + 1)) (allH n) ((List.range n).map had) :=
    forall₂_maps _ fun i hi => makes_had (by have := List.mem_range.1 hi; omega) hn
  have hX : List.Forall₂ (Makes (n + 1)) (allX n) ((List.range n).map flp) :=
    forall₂_maps _ fun i hi => makes_flp (by have := List.mem_range.1 hi; omega) hn
  unfold iterationGates iterOps
  refine List.rel_append (List.rel_append (List.rel_append (List.rel_append (List.rel_append ?_ hH) hX) ?_) hX) hH
  · refine .cons ?_ (.cons (Makes.ident _) .nil)
    refine Makes.gate (by omega) hn (pairwise_range_map n fun i => !oracle.getD i false) fun c hc => ?_
    obtain ⟨b, hb, rfl⟩ := List.mem_map.1 hc
    have := List.mem_range.1 hb
    show b ≠ n
    omega
  · refine .cons (makes_had (by omega) hn) (.cons ?_ (.cons (makes_had (by omega) hn) .nil))
    refine Makes.gate (by omega) hn (pairwise_range_map (n - 1) fun _ => false) fun c hc => ?_
    obtain ⟨b, hb, rfl⟩ := List.mem_map.1 hc
    have := List.mem_range.1 hb
    show b ≠ n - 1
    omega

theorem runOps_append (a b : List ((Nat → CR) → Nat → CR)) (f : Nat → CR) : runOps (a ++ b) f = runOps b (runOps a f) := by
  unfold runOps; rw [List.foldl_append]

theorem iterOps_eq (oracle : List Bool) (n : Nat) (f : Nat → CR) :
    runOps (iterOps oracle n) f = diffusion n (oracleOp oracle n f) := by
  unfold iterOps
  simp only [runOps_append]
  rfl

theorem setup_makes {n : Nat} (hn : n + 1 ≤ NQUBITS) :
    List.Forall₂ (Makes (n + 1)) (setupGates n) (flp n :: (List.range n).map had) :=
  .cons (makes_flp (by omega) hn)
    (forall₂_maps _ fun i hi => makes_had (by have := List.mem_range.1 hi; omega) hn)

variable {sqrt : ℝ → ℝ} {α : Type} {T : Option α → Prop} {x : ℝ}

/-- The state `grover` ends with. -/
theorem grover_meets {oracle : List Bool} {n : Nat} (hn0 : 0 < n) (hn : n + 1 ≤ NQUBITS) (hl : oracle.length = n)
    {h : Heap ℝ} {k : Nat → Client α}
    (hk : ∀ h' v, HoldsV (n + 1) h' v
      ((fun f => diffusion n (oracleOp oracle n f))^[iterations n] (two n (marked oracle) (SQRT2 ^ n) (SQRT2 ^ n))) →
      Meets sqrt (k v) h' T x) : Meets sqrt (grover oracle n k) h T x := by
  unfold grover
  refine makeAll_meets _ _ (iter_makes (oracle := oracle) hn0 hn) h [] [] .nil _ fun h1 gs hv1 _ hgs => ?_
  refine buildUnitary_meets hgs (by simp [iterOps]) fun h2 full hv2 _ hfull => ?_
  refine makeAll_meets _ _ (setup_makes hn) h2 [] [] .nil _ fun h3 ss hv3 he3 hss => ?_
  refine buildUnitary_meets hss (by simp) fun h4 setup hv4 he4 hsetup => ?_
  have hfull := he4 _ _ (he3 _ _ hfull)
  refine Meets.call (h1 := h4.addV (basis (n + 1) 0)) (o := .unit) ⟨by omega, hn⟩ rfl ?_
  rw [len_addV]
  refine mv_meets (f := zeroState) (hsetup.addV (basis (n + 1) 0)) ⟨basis (n + 1) 0, addV_new h4 _, rfl, fun i _ => rfl⟩ fun V hV => ?_
  rw [len_addV]
  have e0 : runOps ([] ++ flp n :: (List.range n).map had) zeroState = two n (marked oracle) (SQRT2 ^ n) (SQRT2 ^ n) :=
    setup_two n (marked oracle)
  rw [e0] at hV
  have eop : runOps ([] ++ iterOps oracle n) = fun f => diffusion n (oracleOp oracle n f) :=
    funext fun f => iterOps_eq oracle n f
  rw [eop] at hfull
  refine preLoop_meets (iterations n) _ _ _ ((hfull.addV (basis (n + 1) 0)).addV V) hV _ fun h5 r v hms hr h8 hv => ?_
  have hfull5 : Grover.Holds (n + 1) h5 full fun f => diffusion n (oracleOp oracle n f) := by
    unfold Grover.Holds; rw [hms]; exact hfull
  refine mainLoop_meets (iterations n) r h5 v _ hr h8 hfull5 hv _ fun h6 v' hms' hv' => hk h6 v' ?_
  rw [← Function.iterate_add_apply, show r + (iterations n - r) = iterations n from by omega] at hv'
  exact hv'

/-! ## The rotation -/

/-- The angle of the search: `sin θ = 1 / √(2^n)`. -/
noncomputable def angle (n : Nat) : ℝ := Real.arcsin (1 / √(2 ^ n))

theorem two_le_pow {n : Nat} (hn : 0 < n) : (2 : ℝ) ≤ 2 ^ n := by
  calc (2 : ℝ) = 2 ^ 1 := by norm_num
    _ ≤ 2 ^ n := pow_le_pow_right₀ (by norm_num) hn

theorem sqrt_pos' (n : Nat) : 0 < √((2 : ℝ) ^ n) := Real.sqrt_pos.2 (by positivity)

theorem sin_angle {n : Nat} (hn : 0 < n) : Real.sin (angle n) = 1 / √(2 ^ n) := by
  have h1 : 1 / √((2 : ℝ) ^ n) ≤ 1 := by
    rw [div_le_one (sqrt_pos' n)]
    exact Real.one_le_sqrt.2 (by linarith [two_le_pow hn])
  have h0 : 0 ≤ 1 / √((2 : ℝ) ^ n) := by positivity
  exact Real.sin_arcsin (by linarith) h1

theorem cos_angle {n : Nat} (hn : 0 < n) : Real.cos (angle n) = √(2 ^ n - 1) / √(2 ^ n) := by
  unfold angle
  rw [Real.cos_arcsin, div_pow, one_pow, Real.sq_sqrt (by positivity), ← Real.sqrt_div (by linarith [two_le_pow hn])]
  congr 1
  field_simp

/-- The two amplitudes after `k` iterations. -/
noncomputable def ampA (n k : Nat) : ℝ := (-1) ^ k * Real.sin ((2 * k + 1) * angle n)
noncomputable def ampB (n k : Nat) : ℝ := (-1) ^ k * Real.cos ((2 * k + 1) * angle n) / √(2 ^ n - 1)

theorem amp_zero {n : Nat} (hn : 0 < n) : ampA n 0 = SQRT2 ^ n ∧ ampB n 0 = SQRT2 ^ n := by
  have e : SQRT2 ^ n = 1 / √(2 ^ n) := by
    unfold SQRT2
    have h2 : (√2 / 2 : ℝ) = 1 / √2 := by
      rw [div_eq_div_iff (by norm_num) (by positivity)]
      rw [Real.mul_self_sqrt (by norm_num), one_mul]
    rw [h2, div_pow, one_pow]
    congr 1
    symm
    rw [Real.sqrt_eq_iff_mul_self_eq (by positivity) (by positivity), ← mul_pow, Real.mul_self_sqrt (by norm_num)]
  have hN := two_le_pow hn
  have hs : 0 < √((2 : ℝ) ^ n - 1) := Real.sqrt_pos.2 (by linarith)
  constructor
  · unfold ampA; simp only [pow_zero, Nat.cast_zero, mul_zero, zero_add, one_mul]; rw [sin_angle hn, e]
  · unfold ampB; simp only [pow_zero, Nat.cast_zero, mul_zero, zero_add, one_mul]
    rw [cos_angle hn, e]
    field_simp

theorem amp_succ {n : Nat} (hn : 0 < n) (k : Nat) :
    ampA n (k + 1) = -ampA n k - 2 / 2 ^ n * (-ampA n k + (2 ^ n - 1) * ampB n k) ∧
    ampB n (k + 1) = ampB n k - 2 / 2 ^ n * (-ampA n k + (2 ^ n - 1) * ampB n k) := by
  have hN := two_le_pow hn
  have hS : 0 < √((2 : ℝ) ^ n) := sqrt_pos' n
  have hs : 0 < √((2 : ℝ) ^ n - 1) := Real.sqrt_pos.2 (by linarith)
  have hS2 : √((2 : ℝ) ^ n) ^ 2 = 2 ^ n := Real.sq_sqrt (by positivity)
  have hs2 : √((2 : ℝ) ^ n - 1) ^ 2 = 2 ^ n - 1 := Real.sq_sqrt (by linarith)
  have c2 : Real.cos (2 * angle n) = 1 - 2 / 2 ^ n := by
    rw [Real.cos_two_mul, cos_angle hn, div_pow, hS2, hs2]; field_simp; ring
  have s2 : Real.sin (2 * angle n) = 2 * √(2 ^ n - 1) / 2 ^ n := by
    rw [Real.sin_two_mul, cos_angle hn, sin_angle hn, ← hS2]
    simp only [hS2]
    field_simp
    rw [hS2]
  have e : ((2 * ((k + 1 : Nat) : ℝ) + 1) * angle n) = (2 * k + 1) * angle n + 2 * angle n := by push_cast; ring
  unfold ampA ampB
  rw [e, Real.sin_add, Real.cos_add, c2, s2, pow_succ]
  generalize Real.sin ((2 * (k : ℝ) + 1) * angle n) = S
  generalize Real.cos ((2 * (k : ℝ) + 1) * angle n) = D
  generalize √((2 : ℝ) ^ n - 1) = r at *
  have hr : (2 : ℝ) ^ n - 1 = r ^ 2 := hs2.symm
  have hN0 : (2 : ℝ) ^ n = r ^ 2 + 1 := by linarith
  rw [hr, hN0]
  have h1 : r ^ 2 + 1 ≠ 0 := by positivity
  constructor
  · field_simp; ring
  · field_simp; ring

theorem iterate_two {oracle : List Bool} {n : Nat} (hn : 0 < n) (hl : oracle.length = n) (k : Nat) :
    (fun f => diffusion n (oracleOp oracle n f))^[k] (two n (marked oracle) (SQRT2 ^ n) (SQRT2 ^ n)) =
      two n (marked oracle) (ampA n k) (ampB n k) := by
  induction k with
  | zero => rw [(amp_zero hn).1, (amp_zero hn).2]; rfl
  | succ k ih =>
    rw [Function.iterate_succ_apply', ih, iter_two hn hl, (amp_succ hn k).1, (amp_succ hn k).2]

/-! ## Measuring -/

theorem two_mag2 (n w : Nat) (a b : ℝ) (i : Nat) :
    (two n w a b i).mag2 = if i / 2 ^ n = 1 then (if i % 2 ^ n = w then a * a else b * b) else 0 := by
  unfold two
  split
  · split
    · exact re_mag2 a
    · exact re_mag2 b
  · simp [Cx.mag2]

theorem two_norm {n w : Nat} (hw : w < 2 ^ n) (a b : ℝ) :
    Py.nrm (n + 1) (two n w a b) = a * a + (2 ^ n - 1) * (b * b) := by
  have hpos : 0 < 2 ^ n := Nat.two_pow_pos n
  unfold Py.nrm
  rw [sum_two_pow_succ fun i => (two n w a b i).mag2]
  have e1 : ∑ i ∈ range (2 ^ n), (two n w a b i).mag2 = 0 := Finset.sum_eq_zero fun i hi => by
    rw [two_mag2, if_neg]
    rw [Nat.div_eq_of_lt (mem_range.1 hi)]; omega
  have e2 : ∀ i ∈ range (2 ^ n), (two n w a b (2 ^ n + i)).mag2 = b * b + if i = w then a * a - b * b else 0 := fun i hi => by
    have hi' := mem_range.1 hi
    rw [two_mag2, if_pos (by rw [Nat.add_div_left _ hpos, Nat.div_eq_of_lt hi']), Nat.add_mod_left, Nat.mod_eq_of_lt hi']
    split <;> ring
  rw [e1, Finset.sum_congr rfl e2, Finset.sum_add_distrib, Finset.sum_ite_eq' (range (2 ^ n)) w, if_pos (mem_range.2 hw),
    Finset.sum_const, Finset.card_range]
  simp only [nsmul_eq_mul]
  push_cast
  ring

theorem amp_norm {n : Nat} (hn : 0 < n) (k : Nat) :
    ampA n k * ampA n k + (2 ^ n - 1) * (ampB n k * ampB n k) = 1 := by
  have hN := two_le_pow hn
  have hs : 0 < √((2 : ℝ) ^ n - 1) := Real.sqrt_pos.2 (by linarith)
  have hs2 : √((2 : ℝ) ^ n - 1) ^ 2 = 2 ^ n - 1 := Real.sq_sqrt (by linarith)
  have h1 : ((-1 : ℝ) ^ k) * (-1) ^ k = 1 := by rw [← mul_pow]; norm_num
  unfold ampA ampB
  generalize √((2 : ℝ) ^ n - 1) = r at *
  rw [← hs2]
  field_simp
  have := Real.sin_sq_add_cos_sq ((2 * (k : ℝ) + 1) * angle n)
  calc _ = ((-1 : ℝ) ^ k * (-1) ^ k) * (Real.sin ((2 * (k : ℝ) + 1) * angle n) ^ 2 + Real.cos ((2 * (k : ℝ) + 1) * angle n) ^ 2) := by ring
    _ = 1 := by rw [h1, this, one_mul]

theorem bits_marked {oracle : List Bool} {n : Nat} (hl : oracle.length = n) :
    bits (n + 1) (2 ^ n + marked oracle) = true :: oracle.reverse := by
  have hw := marked_lt oracle
  rw [hl] at hw
  unfold bits
  rw [List.range_succ, List.map_append, List.reverse_append]
  have e1 : (2 ^ n + marked oracle).testBit n = true := by
    rw [Nat.testBit_two_pow_add_eq, Nat.testBit_lt_two_pow hw]; rfl
  rw [List.map_singleton, e1, List.reverse_singleton, List.singleton_append]
  congr 2
  apply List.ext_getElem?
  intro i
  rw [List.getElem?_map]
  by_cases hi : i < n
  · rw [List.getElem?_range hi, Option.map_some, Nat.testBit_two_pow_add_gt hi, marked_bit, List.getElem?_eq_getElem (by omega),
      List.getD_eq_getElem?_getD, List.getElem?_eq_getElem (by omega)]
    rfl
  · rw [List.getElem?_eq_none (by simp; omega), List.getElem?_eq_none (by omega)]
    rfl

theorem search_meets {oracle : List Bool} {n : Nat} (hn0 : 0 < n) (hn : n + 1 ≤ NQUBITS) (hl : oracle.length = n) (h : Heap ℝ) :
    Meets sqrt (search oracle n) h (· = some (true :: oracle.reverse))
      (Real.sin ((2 * iterations n + 1) * angle n) ^ 2) := by
  classical
  have hw := marked_lt oracle
  rw [hl] at hw
  unfold search
  refine grover_meets hn0 hn hl fun h' v hv => ?_
  rw [iterate_two hn0 hl] at hv
  obtain ⟨V, hV, hVk, hf⟩ := hv
  set f := two n (marked oracle) (ampA n (iterations n)) (ampB n (iterations n)) with hfd
  have hnrm : Py.nrm (n + 1) f = 1 := by rw [hfd, two_norm hw, amp_norm hn0]
  have hVn : Py.nrm (n + 1) V.f = 1 := by rw [nrm_congr hf]; exact hnrm
  have key := drawN_meets (sqrt := sqrt) (T := fun r => r = some (true :: oracle.reverse)) (h := h') (n + 1) (f := V.f) (by rw [hVn]; norm_num)
    (G := fun y => if (some (bits (n + 1) y)) = some (true :: oracle.reverse) then (1 : ℝ) else 0)
    (k := fun us => .call (.measureAll v false fun t => us.getD t 0) fun o _ _ => answer o) (fun us hul hus => by
        have hnz : V.Nonzero := by
          by_contra hc
          have : Py.nrm (n + 1) V.f = 0 := Finset.sum_eq_zero fun i hi => by
            have : V.f i = 0 := by
              by_contra h0
              exact hc ⟨i, by rw [hVk]; exact mem_range.1 hi, h0⟩
            rw [this]; simp [Cx.mag2]
          rw [hVn] at this
          norm_num at this
        refine Meets.call (h1 := ⟨h'.vs.set v V, h'.ms⟩)
          (o := .str (bits (n + 1) (sample (fun t => us.getD t 0) (n + 1) 0 V.f))) ⟨V, hV, hnz, ?_⟩ ?_ ?_
        · intro u hu
          rw [hVk, ← hul] at hu
          beta_reduce
          rw [List.getD_eq_getElem?_getD, List.getElem?_eq_getElem hu]
          exact hus _ (List.getElem_mem hu)
        · simp only [Spec.step, hV, Option.bind_eq_bind, Option.bind_some, hVk]
          rfl
        · exact Meets.ret _ _)
  refine cast (congrArg _ ?_) key
  rw [hVn]
  have hlt : 2 ^ n + marked oracle < 2 ^ (n + 1) := by rw [pow_succ]; omega
  rw [Finset.sum_eq_single (2 ^ n + marked oracle)]
  · rw [bits_marked hl, if_pos rfl, hf _ hlt, hfd, two_mag2, if_pos, if_pos]
    · unfold ampA
      have h1 : ((-1 : ℝ) ^ iterations n) * (-1) ^ iterations n = 1 := by rw [← mul_pow]; norm_num
      calc _ = ((-1 : ℝ) ^ iterations n * (-1) ^ iterations n) * Real.sin ((2 * (iterations n : ℝ) + 1) * angle n) ^ 2 := by ring
        _ = _ := by rw [h1, one_mul]
    · rw [Nat.add_mod_left, Nat.mod_eq_of_lt hw]
    · rw [Nat.add_div_left _ (Nat.two_pow_pos n), Nat.div_eq_of_lt hw]
  · intro y hy hne
    rw [if_neg, mul_zero]
    intro hc
    have hc : bits (n + 1) y = true :: oracle.reverse := by injection hc
    rw [← bits_marked hl] at hc
    exact hne (bits_inj (mem_range.1 hy) hlt hc)
  · intro hc
    exact absurd (mem_range.2 hlt) hc

/-! ## The success probability -/

theorem sin3_sq (n : Nat) : (3 * (1 / √((2 : ℝ) ^ n)) - 4 * (1 / √((2 : ℝ) ^ n)) ^ 3) ^ 2 = (3 - 4 / 2 ^ n) ^ 2 / 2 ^ n := by
  have hS : 0 < √((2 : ℝ) ^ n) := sqrt_pos' n
  have hS2 : √((2 : ℝ) ^ n) ^ 2 = 2 ^ n := Real.sq_sqrt (by positivity)
  generalize √((2 : ℝ) ^ n) = R at *
  rw [← hS2]
  field_simp

theorem rotation_bound {R θ k : ℝ} (hS4 : 4 ≤ R) (hsin : Real.sin θ = 1 / R) (hθ0 : 0 ≤ θ) (hθpi : θ ≤ Real.pi / 2)
    (hk1 : k ≤ Real.pi / 4 * R) (hk2 : Real.pi / 4 * R < k + 1) :
    1 - 2 / R ^ 2 ≤ Real.sin ((2 * k + 1) * θ) ^ 2 := by
  have hpi := Real.pi_pos
  have hpi4 := Real.pi_le_four
  have hS : 0 < R := by linarith
  have hlow : 1 / R ≤ θ := by rw [← hsin]; exact Real.sin_le hθ0
  have h14 : 1 / R ≤ 1 / 4 := one_div_le_one_div_of_le (by norm_num) hS4
  have hj : 2 / Real.pi * θ ≤ Real.sin θ := Real.mul_le_sin hθ0 hθpi
  have hθ1 : θ ≤ 1 / 2 := by
    rw [hsin] at hj
    have : 2 / Real.pi * θ ≤ 1 / 4 := le_trans hj h14
    rw [div_mul_eq_mul_div, div_le_iff₀ hpi] at this
    linarith
  have hcub : θ - θ ^ 3 / 6 ≤ Real.sin θ := by
    rcases hθ0.eq_or_lt with h | h
    · rw [← h]; simp
    · exact (Real.sin_gt_sub_cube h).le
  have hRθ1 : 1 ≤ R * θ := by rwa [div_le_iff₀ hS, mul_comm] at hlow
  have hq : θ ^ 2 ≤ 1 / 4 := by
    calc θ ^ 2 ≤ (1 / 2) ^ 2 := pow_le_pow_left₀ hθ0 hθ1 2
      _ = 1 / 4 := by norm_num
  have hq0 := sq_nonneg θ
  have hRθ2 : R * θ * (1 - θ ^ 2 / 6) ≤ 1 := by
    rw [hsin, le_div_iff₀ hS] at hcub
    calc R * θ * (1 - θ ^ 2 / 6) = (θ - θ ^ 3 / 6) * R := by ring
      _ ≤ 1 := hcub
  have hRθ3 : R * θ ≤ 1 + θ ^ 2 / 4 := by
    have h1 : 0 < 1 - θ ^ 2 / 6 := by linarith
    have h2 : 1 ≤ (1 + θ ^ 2 / 4) * (1 - θ ^ 2 / 6) := by nlinarith
    have := le_trans hRθ2 h2
    exact le_of_mul_le_mul_right this h1
  have hd1 : -θ ≤ (2 * k + 1) * θ - Real.pi / 2 := by
    have h1 : Real.pi / 4 * R * θ ≤ (k + 1) * θ := mul_le_mul_of_nonneg_right hk2.le hθ0
    have h2 : Real.pi / 4 * 1 ≤ Real.pi / 4 * (R * θ) := mul_le_mul_of_nonneg_left hRθ1 (by positivity)
    linarith
  have hd2 : (2 * k + 1) * θ - Real.pi / 2 ≤ θ + Real.pi / 8 * θ ^ 2 := by
    have h1 : k * θ ≤ Real.pi / 4 * R * θ := mul_le_mul_of_nonneg_right hk1 hθ0
    have h2 : Real.pi / 4 * (R * θ) ≤ Real.pi / 4 * (1 + θ ^ 2 / 4) := mul_le_mul_of_nonneg_left hRθ3 (by positivity)
    linarith
  have hd3 : Real.pi / 8 * θ ^ 2 ≤ θ / 4 := by
    have h1 : Real.pi / 8 * θ ^ 2 ≤ 1 / 2 * θ ^ 2 := mul_le_mul_of_nonneg_right (by linarith) hq0
    have h2 : θ ^ 2 ≤ 1 / 2 * θ := by rw [sq]; exact mul_le_mul_of_nonneg_right hθ1 hθ0
    linarith
  have hsinδ : Real.sin ((2 * k + 1) * θ) = Real.cos ((2 * k + 1) * θ - Real.pi / 2) := by
    rw [Real.cos_sub_pi_div_two]
  rw [hsinδ, Real.cos_sq']
  generalize (2 * k + 1) * θ - Real.pi / 2 = δ at *
  have hsq : Real.sin δ ^ 2 ≤ δ ^ 2 := by
    rw [← sq_abs (Real.sin δ), ← sq_abs δ]
    exact pow_le_pow_left₀ (abs_nonneg _) Real.abs_sin_le_abs 2
  have hδ2 : δ ^ 2 ≤ (5 / 4 * θ) ^ 2 := by
    apply sq_le_sq'
    · linarith
    · linarith
  have hfin : (5 / 4 * θ) ^ 2 ≤ 2 / R ^ 2 := by
    rw [le_div_iff₀ (by positivity)]
    have hR : R * θ ≤ 1.0625 := by linarith
    calc (5 / 4 * θ) ^ 2 * R ^ 2 = (5 / 4) ^ 2 * (R * θ) ^ 2 := by ring
      _ ≤ (5 / 4) ^ 2 * 1.0625 ^ 2 := by
        apply mul_le_mul_of_nonneg_left _ (by norm_num)
        exact pow_le_pow_left₀ (by positivity) hR 2
      _ ≤ 2 := by norm_num
  linarith

/-- Failing after the computed number of iterations has probability at most `2 / 2^n`. -/
theorem success_bound {n : Nat} (hn : 0 < n) :
    1 - 2 / 2 ^ n ≤ Real.sin ((2 * iterations n + 1) * angle n) ^ 2 := by
  have hN := two_le_pow hn
  have hS : 0 < √((2 : ℝ) ^ n) := sqrt_pos' n
  have hS2 : √((2 : ℝ) ^ n) ^ 2 = 2 ^ n := Real.sq_sqrt (by positivity)
  have hsin := sin_angle hn
  by_cases h3 : n ≤ 3
  · have hi : iterations n = 1 := if_pos h3
    rw [hi]
    have e : (2 * ((1 : Nat) : ℝ) + 1) * angle n = 3 * angle n := by push_cast; ring
    rw [e, Real.sin_three_mul, hsin]
    rw [sin3_sq]
    obtain rfl | rfl | rfl : n = 1 ∨ n = 2 ∨ n = 3 := by omega
    · norm_num
    · norm_num
    · norm_num
  · have hn4 : 4 ≤ n := by omega
    have hN16 : (16 : ℝ) ≤ 2 ^ n := by
      calc (16 : ℝ) = 2 ^ 4 := by norm_num
        _ ≤ 2 ^ n := pow_le_pow_right₀ (by norm_num) hn4
    have hS4 : 4 ≤ √((2 : ℝ) ^ n) := by
      rw [show (4 : ℝ) = √16 by rw [show (16 : ℝ) = 4 ^ 2 by norm_num, Real.sqrt_sq (by norm_num)]]
      exact Real.sqrt_le_sqrt hN16
    have hi : iterations n = ⌊Real.pi / 4 * √((2 : ℝ) ^ n)⌋₊ := by
      unfold iterations
      rw [if_neg h3, Real.sqrt_eq_rpow, ← Real.rpow_natCast, ← Real.rpow_mul (by norm_num)]
      congr 4
      ring
    have hpi := Real.pi_pos
    have hpi4 := Real.pi_le_four
    have hk1 : (iterations n : ℝ) ≤ Real.pi / 4 * √((2 : ℝ) ^ n) := by rw [hi]; exact Nat.floor_le (by positivity)
    have hk2 : Real.pi / 4 * √((2 : ℝ) ^ n) < (iterations n : ℝ) + 1 := by rw [hi]; exact Nat.lt_floor_add_one _
    have := rotation_bound hS4 hsin (Real.arcsin_nonneg.2 (by positivity)) (Real.arcsin_le_pi_div_two _) hk1 hk2
    rwa [hS2] at this

/-! ## C59 -/

variable {cfg : Cfg ℝ} {thr thrM : Nat} {cs : List (Cmd ℝ)} {h : Heap ℝ} {σ : Sys ℝ} {os : List (Obs ℝ)}

theorem meets_yields {p : Client α} (hr : Rel cfg.env σ h) (hm : Meets cfg.sqrt p h T x) : Yields cfg p σ T x := by
  obtain ⟨hs, hfr, hp⟩ := hm
  exact hp ▸ Safe.yields _ _ _ _ hr hs hfr

/-- **C59 (search).** From every reachable state of the engine, for every oracle string of `n` characters, the Grover
program runs without error under every schedule, and measuring its result gives the string `1` followed by the oracle
string (highest qubit first) with probability exactly `sin²((2k+1) arcsin(2^{-n/2}))`, where `k` is the number of
iterations computed by the program; this is at least `1 - 2/2^n`. -/
theorem C59_search (hR : Hist cfg thr thrM cs h σ os) {oracle : List Bool} {n : Nat} (hn0 : 0 < n) (hn : n + 1 ≤ 100)
    (hl : oracle.length = n) :
    ∃ p : ℝ, Yields cfg (search oracle n) σ (· = some (true :: oracle.reverse)) p ∧
      p = Real.sin ((2 * (if n ≤ 3 then 1 else ⌊Real.pi / 4 * (2 : ℝ) ^ ((n : ℝ) / 2)⌋₊ : Nat) + 1) * Real.arcsin (1 / √(2 ^ n))) ^ 2 ∧
      1 - 2 / 2 ^ n ≤ p := by
  exact ⟨_, meets_yields hR.rel (search_meets hn0 hn hl h), rfl, success_bound hn0⟩

/-- The entries `getVector` returns. -/
noncomputable def vecAnswer : Obs ℝ → Client (List (Option CR))
  | .vec l => .ret l
  | _ => .raise

/-- Reading out the state of the Grover program. -/
noncomputable def groverVector (oracle : List Bool) (n : Nat) : Client (List (Option CR)) :=
  grover oracle n fun v => .call (.getVector v) fun o _ _ => vecAnswer o

/-- **C59 (state).** The final state: the marked string has amplitude `± sin((2k+1)θ)`, all other strings share the rest
equally, and the highest qubit is 1. -/
theorem C59_state (hR : Hist cfg thr thrM cs h σ os) {oracle : List Bool} {n : Nat} (hn0 : 0 < n) (hn : n + 1 ≤ 30)
    (hl : oracle.length = n) :
    Yields cfg (groverVector oracle n) σ (· = some ((List.range (2 ^ (n + 1))).map fun i => some
      (if i < 2 ^ n then (0 : CR)
       else if ∀ b < n, i.testBit b = oracle.getD b false then
         ⟨(-1) ^ iterations n * Real.sin ((2 * iterations n + 1) * Real.arcsin (1 / √(2 ^ n))), 0⟩
       else ⟨(-1) ^ iterations n * Real.cos ((2 * iterations n + 1) * Real.arcsin (1 / √(2 ^ n))) / √(2 ^ n - 1), 0⟩))) 1 := by
  classical
  have hw := marked_lt oracle
  rw [hl] at hw
  have hpos : 0 < 2 ^ n := Nat.two_pow_pos n
  have hmeets : Meets cfg.sqrt (groverVector oracle n) h (· = some ((List.range (2 ^ (n + 1))).map fun i => some
      (if i < 2 ^ n then (0 : CR)
       else if ∀ b < n, i.testBit b = oracle.getD b false then
         ⟨(-1) ^ iterations n * Real.sin ((2 * iterations n + 1) * Real.arcsin (1 / √(2 ^ n))), 0⟩
       else ⟨(-1) ^ iterations n * Real.cos ((2 * iterations n + 1) * Real.arcsin (1 / √(2 ^ n))) / √(2 ^ n - 1), 0⟩))) 1 := by
    unfold groverVector
    refine grover_meets hn0 (le_trans hn (by decide)) hl fun h' v hv => ?_
    rw [iterate_two hn0 hl] at hv
    obtain ⟨V, hV, hVk, hf⟩ := hv
    have hVn : Py.nrm (n + 1) V.f = 1 := by
      rw [nrm_congr hf, two_norm hw, amp_norm hn0]
    have hnz : V.Nonzero := by
      by_contra hc
      have : Py.nrm (n + 1) V.f = 0 := Finset.sum_eq_zero fun i hi => by
        have : V.f i = 0 := by
          by_contra h0
          exact hc ⟨i, by rw [hVk]; exact mem_range.1 hi, h0⟩
        rw [this]; simp [Cx.mag2]
      rw [hVn] at this
      norm_num at this
    refine Meets.call (h1 := h') (o := .vec ((List.range (2 ^ V.k)).map fun i => some (V.f i)))
      ⟨V, hV, hnz, by omega⟩ ?_ ?_
    · simp only [Spec.step, hV, Option.bind_eq_bind, Option.bind_some]
    · unfold vecAnswer
      have e : (List.range (2 ^ V.k)).map (fun i => some (V.f i)) = (List.range (2 ^ (n + 1))).map fun i => some
          (if i < 2 ^ n then (0 : CR)
           else if ∀ b < n, i.testBit b = oracle.getD b false then
             ⟨(-1) ^ iterations n * Real.sin ((2 * iterations n + 1) * Real.arcsin (1 / √(2 ^ n))), 0⟩
           else ⟨(-1) ^ iterations n * Real.cos ((2 * iterations n + 1) * Real.arcsin (1 / √(2 ^ n))) / √(2 ^ n - 1), 0⟩) := by
        rw [hVk]
        refine List.map_congr_left fun i hi => ?_
        have hi := List.mem_range.1 hi
        rw [hf i hi]
        congr 1
        unfold two
        have hlow : (∀ b < n, i.testBit b = oracle.getD b false) ↔ i % 2 ^ n = marked oracle := by
          rw [← sat_oracle (i := i) hl]
          unfold sat oracleControls
          constructor
          · intro h c hc _
            obtain ⟨b, hb, rfl⟩ := List.mem_map.1 hc
            have := h b (List.mem_range.1 hb)
            simpa using this
          · intro h b hb
            have := h ⟨b, !oracle.getD b false⟩ (List.mem_map.2 ⟨b, List.mem_range.2 hb, rfl⟩) (show b < n + 1 by omega)
            simpa using this
        by_cases hlt : i < 2 ^ n
        · rw [if_pos hlt, if_neg]
          rw [Nat.div_eq_of_lt hlt]; omega
        · have : i / 2 ^ n = 1 := by
            rw [pow_succ] at hi
            rw [Nat.div_eq_iff hpos]
            omega
          rw [if_neg hlt, if_pos this]
          simp only [hlow]
          rfl
      rw [e]
      refine ⟨trivial, trivial, ?_⟩
      rw [prob, if_pos rfl]
  exact meets_yields hR.rel hmeets

/-- The hypotheses are met: three data qubits, oracle 011, a new engine; success probability `25/32`. -/
example : ∃ p : ℝ, Yields cfg (search [false, true, true] 3) (Sys.init 1 1) (· = some [true, true, true, false]) p ∧ p = 25 / 32 := by
  obtain ⟨p, h1, h2, _⟩ := C59_search (cfg := cfg) (thr := 1) (thrM := 1) .init (oracle := [false, true, true]) (n := 3)
    (by norm_num) (by norm_num) rfl
  refine ⟨p, h1, ?_⟩
  rw [h2, if_pos (by norm_num)]
  have e : (2 * ((1 : Nat) : ℝ) + 1) * Real.arcsin (1 / √(2 ^ 3)) = 3 * angle 3 := by unfold angle; push_cast; ring
  rw [e, Real.sin_three_mul, sin_angle (by norm_num)]
  rw [sin3_sq]
  norm_num

end QDD.Props
