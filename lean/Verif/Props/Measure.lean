import Verif.Props.KronM
import Mathlib.MeasureTheory.Measure.Lebesgue.Basic
/-!
# C22-C26, C50, C51: probabilities and measurements
-/

set_option linter.unusedSectionVars false
set_option linter.unusedVariables false
set_option linter.unusedSimpArgs false

namespace QDD.Props
open Spec Api Finset

variable {K : Type} [Field K] [LinearOrder K] [IsStrictOrderedRing K]
variable {cfg : Cfg K} {thr thrM : Nat} {cs : List (Cmd K)} {h : Heap K} {σ : Sys K} {os : List (Obs K)}

/-- The Born probability of index `i` among the `2^n` amplitudes `f`. -/
def born (n : Nat) (f : Nat → C K) (i : Nat) : K := (f i).mag2 / ∑ j ∈ range (2 ^ n), (f j).mag2

theorem sum_pos' {n : Nat} {f : Nat → C K} (h : ∃ i < 2 ^ n, f i ≠ 0) : 0 < ∑ j ∈ range (2 ^ n), (f j).mag2 := by
  obtain ⟨i, hi, hne⟩ := h
  exact Finset.sum_pos' (fun _ _ => Cx.mag2_nonneg _) ⟨i, mem_range.2 hi, mag2_pos hne⟩

/-! ## C22 -/

/-- **C22.** `probabilities(v)` returns, in index order, `|v[i]|^2 / norm^2` for the entries that `getVector` returns, in
every reachable state (whatever the `probs` map holds from earlier calls). -/
theorem C22_probabilities (hR : Hist cfg thr thrM cs h σ os) {v n : Nat} {V : Vec K} (hv : h.vs[v]? = some V)
    (hV : V.k = n) (h0 : V.Nonzero) (hn : n ≤ 30) {f : Nat → C K} (hf : ReadsV cfg σ v n f) :
    Returns cfg σ (.probabilities v) (.probs ((List.range (2 ^ n)).map (born n f))) := by
  subst hV
  have ef := hf.unique (hR.readsV hv h0 hn)
  have := hR.returns (c := .probabilities v) ⟨V, hv, h0, hn⟩ (h' := h)
    (o' := .probs ((List.range (2 ^ V.k)).map fun i => (V.f i).mag2 / V.norm2))
    (by simp only [Spec.step, hv, Option.bind_eq_bind, Option.bind_some])
  have hl : (List.range (2 ^ V.k)).map (fun i => (V.f i).mag2 / V.norm2) = (List.range (2 ^ V.k)).map (born V.k f) := by
    refine map_range_inj.2 fun i hi => ?_
    have hsum : ∑ j ∈ range (2 ^ V.k), (f j).mag2 = ∑ j ∈ range (2 ^ V.k), (V.f j).mag2 :=
      Finset.sum_congr rfl fun j hj => by rw [ef j (mem_range.1 hj)]
    unfold born Vec.norm2
    rw [ef i hi, hsum]
  rw [← hl]
  exact this

/-- **C22.** The entries are nonnegative and sum to 1. -/
theorem C22_distribution {n : Nat} {f : Nat → C K} (h0 : ∃ i < 2 ^ n, f i ≠ 0) :
    (∀ i, 0 ≤ born n f i) ∧ ((List.range (2 ^ n)).map (born n f)).sum = 1 := by
  have hp := sum_pos' h0
  refine ⟨fun i => div_nonneg (Cx.mag2_nonneg _) hp.le, ?_⟩
  have : ((List.range (2 ^ n)).map (born n f)).sum = ∑ i ∈ range (2 ^ n), born n f i := by
    generalize 2 ^ n = N
    induction N with
    | zero => simp
    | succ N ih => rw [List.range_succ, List.map_append, List.sum_append, ih, Finset.sum_range_succ]; simp
  rw [this]
  unfold born
  rw [← Finset.sum_div, div_self hp.ne']

/-! ## C23 -/

theorem sum_two_pow_succ {j : Nat} (g : Nat → K) :
    ∑ i ∈ range (2 ^ (j + 1)), g i = ∑ i ∈ range (2 ^ j), g i + ∑ i ∈ range (2 ^ j), g (2 ^ j + i) := by
  rw [pow_succ, Nat.mul_two, Finset.sum_range_add]

/-- The draws that lead to a basis state form a box of the right volume. -/
theorem sample_box : ∀ (j : Nat) (f : Nat → C K), 0 < ∑ i ∈ range (2 ^ j), (f i).mag2 →
    ∃ lo hi : Nat → Nat → K, (∀ x u, 0 ≤ lo x u ∧ lo x u ≤ hi x u ∧ hi x u ≤ 1) ∧
      (∀ x < 2 ^ j, ∏ u ∈ range j, (hi x u - lo x u) = born j f x) ∧
      ∀ (t : Nat) (draw : Nat → K), (∀ u < j, 0 ≤ draw (t + u) ∧ draw (t + u) < 1) →
        ∀ y < 2 ^ j, (sample draw j t f = y ↔ ∀ u < j, lo y u ≤ draw (t + u) ∧ draw (t + u) < hi y u) := by
  intro j
  induction j with
  | zero =>
    intro f hp
    refine ⟨fun _ _ => 0, fun _ _ => 0, by simp, fun x hx => ?_, fun t draw _ y hy => ?_⟩
    · have : x = 0 := by simpa using hx
      subst this
      simp [born] at hp ⊢
      rw [div_self hp.ne']
    · have : y = 0 := by simpa using hy
      subst this
      simp [sample]
  | succ j ih =>
    intro f hp
    set A := ∑ i ∈ range (2 ^ j), (f i).mag2 with hA
    set B := ∑ i ∈ range (2 ^ j), (f (2 ^ j + i)).mag2 with hB
    have hsum : ∑ i ∈ range (2 ^ (j + 1)), (f i).mag2 = A + B := sum_two_pow_succ _
    have hA0 : 0 ≤ A := Finset.sum_nonneg fun _ _ => Cx.mag2_nonneg _
    have hB0 : 0 ≤ B := Finset.sum_nonneg fun _ _ => Cx.mag2_nonneg _
    rw [hsum] at hp
    set p := A / (A + B) with hpd
    have hp0 : 0 ≤ p := div_nonneg hA0 hp.le
    have hp1 : p ≤ 1 := (div_le_one hp).2 (by linarith)
    have hpow : 2 ^ (j + 1) = 2 ^ j + 2 ^ j := by rw [pow_succ]; omega
    -- a box for each half; any box will do for a half of weight zero
    have key : ∀ g : Nat → C K, ∃ lo hi : Nat → Nat → K, (∀ x u, 0 ≤ lo x u ∧ lo x u ≤ hi x u ∧ hi x u ≤ 1) ∧
        (0 < ∑ i ∈ range (2 ^ j), (g i).mag2 → (∀ x < 2 ^ j, ∏ u ∈ range j, (hi x u - lo x u) = born j g x) ∧
        ∀ (t : Nat) (draw : Nat → K), (∀ u < j, 0 ≤ draw (t + u) ∧ draw (t + u) < 1) →
          ∀ y < 2 ^ j, (sample draw j t g = y ↔ ∀ u < j, lo y u ≤ draw (t + u) ∧ draw (t + u) < hi y u)) := by
      intro g
      by_cases hg : 0 < ∑ i ∈ range (2 ^ j), (g i).mag2
      · obtain ⟨lo, hi, h1, h2, h3⟩ := ih g hg
        exact ⟨lo, hi, h1, fun _ => ⟨h2, h3⟩⟩
      · exact ⟨fun _ _ => 0, fun _ _ => 0, by simp, fun h => absurd h hg⟩
    obtain ⟨lo0, hi0, a1, a2⟩ := key f
    obtain ⟨lo1, hi1, b1, b2⟩ := key (fun i => f (2 ^ j + i))
    rw [← hA] at a2
    rw [← hB] at b2
    have zeroA : A = 0 → ∀ x < 2 ^ j, (f x).mag2 = 0 := fun h x hx =>
      (Finset.sum_eq_zero_iff_of_nonneg (fun _ _ => Cx.mag2_nonneg _)).1 h x (mem_range.2 hx)
    have zeroB : B = 0 → ∀ x < 2 ^ j, (f (2 ^ j + x)).mag2 = 0 := fun h x hx =>
      (Finset.sum_eq_zero_iff_of_nonneg (f := fun i => (f (2 ^ j + i)).mag2) (fun _ _ => Cx.mag2_nonneg _)).1 h x
        (mem_range.2 hx)
    refine ⟨fun x u => if x < 2 ^ j then (if u = 0 then 0 else lo0 x (u - 1))
        else (if u = 0 then p else lo1 (x - 2 ^ j) (u - 1)),
      fun x u => if x < 2 ^ j then (if u = 0 then p else hi0 x (u - 1))
        else (if u = 0 then 1 else hi1 (x - 2 ^ j) (u - 1)), ?_, ?_, ?_⟩
    · intro x u
      by_cases hx : x < 2 ^ j <;> by_cases hu : u = 0 <;> simp only [hx, hu, if_true, if_false]
      · exact ⟨le_refl _, hp0, hp1⟩
      · exact a1 _ _
      · exact ⟨hp0, hp1, le_refl _⟩
      · exact b1 _ _
    · intro x hx
      rw [Finset.prod_range_succ']
      simp only [if_true, Nat.add_eq_zero_iff, one_ne_zero, and_false, if_false, Nat.add_sub_cancel]
      unfold born
      rw [hsum]
      by_cases hxl : x < 2 ^ j
      · simp only [hxl, if_true, sub_zero]
        rcases hA0.eq_or_lt with h0 | h0
        · rw [zeroA h0.symm x hxl, hpd, ← h0]; simp
        · rw [(a2 h0).1 x hxl, born, ← hA, hpd, div_mul_div_comm, mul_comm (f x).mag2 A,
            mul_div_mul_left _ _ h0.ne']
      · simp only [hxl, if_false]
        obtain ⟨y, rfl⟩ := Nat.exists_eq_add_of_le (Nat.le_of_not_lt hxl)
        have hy : y < 2 ^ j := by omega
        rw [Nat.add_sub_cancel_left]
        have h1p : 1 - p = B / (A + B) := by rw [hpd, eq_div_iff hp.ne', sub_mul, div_mul_cancel₀ _ hp.ne']; ring
        rcases hB0.eq_or_lt with h0 | h0
        · rw [zeroB h0.symm y hy, h1p, ← h0]; simp
        · rw [(b2 h0).1 y hy, born, ← hB, h1p, div_mul_div_comm, mul_comm _ B, mul_div_mul_left _ _ h0.ne']
    · intro t draw hd y hy
      have hd0 := hd 0 (by omega)
      rw [Nat.add_zero] at hd0
      have hd' : ∀ u < j, 0 ≤ draw (t + 1 + u) ∧ draw (t + 1 + u) < 1 := fun u hu => by
        have := hd (u + 1) (by omega); rwa [show t + (u + 1) = t + 1 + u by omega] at this
      have split : ∀ P : Nat → Prop, (∀ u < j + 1, P u) ↔ P 0 ∧ ∀ u < j, P (u + 1) := by
        intro P
        constructor
        · intro hh; exact ⟨hh 0 (by omega), fun u hu => hh _ (by omega)⟩
        · rintro ⟨h0, h1⟩ u hu
          cases u with
          | zero => exact h0
          | succ u => exact h1 u (by omega)
      rw [split]
      simp only [if_true, Nat.add_eq_zero_iff, one_ne_zero, and_false, if_false, Nat.add_sub_cancel, Nat.add_zero]
      have eadd : ∀ u, t + (u + 1) = t + 1 + u := fun u => by omega
      rw [show (∀ u < j, (if y < 2 ^ j then lo0 y u else lo1 (y - 2 ^ j) u) ≤ draw (t + (u + 1)) ∧
          draw (t + (u + 1)) < if y < 2 ^ j then hi0 y u else hi1 (y - 2 ^ j) u) ↔
        (∀ u < j, (if y < 2 ^ j then lo0 y u else lo1 (y - 2 ^ j) u) ≤ draw (t + 1 + u) ∧
          draw (t + 1 + u) < if y < 2 ^ j then hi0 y u else hi1 (y - 2 ^ j) u) from
        forall_congr' fun u => by rw [eadd u]]
      simp only [sample, hsum]
      rw [← hA, ← hpd]
      have s0 := sample_lt draw j (t + 1) f
      have s1 := sample_lt draw j (t + 1) (fun i => f (2 ^ j + i))
      by_cases hbr : draw t < p
      · rw [if_pos hbr]
        have hApos : 0 < A := by
          rcases hA0.eq_or_lt with h0 | h0
          · rw [hpd, ← h0, zero_div] at hbr; exact absurd hbr (not_lt.2 hd0.1)
          · exact h0
        by_cases hyl : y < 2 ^ j
        · simp only [hyl, if_true]
          rw [(a2 hApos).2 (t + 1) draw hd' y hyl]
          exact ⟨fun hh => ⟨⟨hd0.1, hbr⟩, hh⟩, fun hh => hh.2⟩
        · simp only [hyl, if_false]
          exact ⟨fun hh => absurd hh (by omega), fun hh => absurd hbr (not_lt.2 hh.1.1)⟩
      · rw [if_neg hbr]
        have hBpos : 0 < B := by
          rcases hB0.eq_or_lt with h0 | h0
          · have : p = 1 := by
              rw [hpd, ← h0, add_zero]
              rw [← h0, add_zero] at hp
              exact div_self hp.ne'
            rw [this] at hbr; exact absurd hd0.2 hbr
          · exact h0
        by_cases hyl : y < 2 ^ j
        · simp only [hyl, if_true]
          exact ⟨fun hh => absurd hh (by omega), fun hh => absurd hh.1.2 hbr⟩
        · simp only [hyl, if_false]
          obtain ⟨z, rfl⟩ := Nat.exists_eq_add_of_le (Nat.le_of_not_lt hyl)
          have hz : z < 2 ^ j := by omega
          rw [Nat.add_sub_cancel_left]
          rw [← (b2 hBpos).2 (t + 1) draw hd' z hz]
          constructor
          · intro hh
            have : sample draw j (t + 1) (fun i => f (2 ^ j + i)) = z := by omega
            exact ⟨⟨not_lt.1 hbr, hd0.2⟩, this⟩
          · rintro ⟨_, hh⟩; rw [hh]

/-- The caller's string for the basis state `x` of `n` qubits, highest qubit first, determines `x`. -/
theorem bits_inj {n x y : Nat} (hx : x < 2 ^ n) (hy : y < 2 ^ n) (hh : bits n x = bits n y) : x = y := by
  unfold bits at hh
  have h1 := map_range_inj.1 (List.reverse_injective hh)
  apply Nat.eq_of_testBit_eq
  intro b
  rcases Nat.lt_or_ge b n with hb | hb
  · exact h1 b hb
  · rw [Nat.testBit_lt_two_pow (lt_of_lt_of_le hx (Nat.pow_le_pow_right (by omega) hb)),
      Nat.testBit_lt_two_pow (lt_of_lt_of_le hy (Nat.pow_le_pow_right (by omega) hb))]

theorem measureAll_returns (hR : Hist cfg thr thrM cs h σ os) {v : Nat} {V : Vec K} (hv : h.vs[v]? = some V)
    (h0 : V.Nonzero) (c : Bool) {draw : Nat → K} (hd : ∀ u < V.k, 0 ≤ draw u ∧ draw u < 1) :
    Returns cfg σ (.measureAll v c draw) (.str (bits V.k (sample draw V.k 0 V.f))) :=
  hR.returns (c := .measureAll v c draw) ⟨V, hv, h0, hd⟩
    (h' := ⟨h.vs.set v (if c then basis V.k (sample draw V.k 0 V.f) else V), h.ms⟩)
    (by simp only [Spec.step, hv, Option.bind_eq_bind, Option.bind_some])

/-- **C23.** For a nonzero state of `n` qubits there is one box of draws per basis state, of volume its Born
probability; for every sequence of draws in [0, 1) `measureAll` returns, under every schedule, the `n`-character string
of the basis state whose box contains the draws. -/
theorem C23_measureAll (hR : Hist cfg thr thrM cs h σ os) {v n : Nat} {V : Vec K} (hv : h.vs[v]? = some V)
    (hV : V.k = n) (h0 : V.Nonzero) :
    ∃ lo hi : Nat → Nat → K, (∀ x u, 0 ≤ lo x u ∧ lo x u ≤ hi x u ∧ hi x u ≤ 1) ∧
      (∀ x < 2 ^ n, ∏ u ∈ range n, (hi x u - lo x u) = born n V.f x) ∧
      ∀ (c : Bool) (draw : Nat → K), (∀ u < n, 0 ≤ draw u ∧ draw u < 1) →
        ∃ x < 2 ^ n, Returns cfg σ (.measureAll v c draw) (.str (bits n x)) ∧ V.f x ≠ 0 ∧
          ∀ y < 2 ^ n, (y = x ↔ ∀ u < n, lo y u ≤ draw u ∧ draw u < hi y u) := by
  subst hV
  obtain ⟨lo, hi, h1, h2, h3⟩ := sample_box V.k V.f (sum_pos' h0)
  refine ⟨lo, hi, h1, h2, fun c draw hd => ⟨sample draw V.k 0 V.f, sample_lt _ _ _ _,
    measureAll_returns hR hv h0 c hd, ?_, fun y hy => ?_⟩⟩
  · intro hz
    have hb := (h3 0 draw (by simpa using hd) _ (sample_lt draw V.k 0 V.f)).1 rfl
    have hv0 := h2 _ (sample_lt draw V.k 0 V.f)
    rw [show born V.k V.f (sample draw V.k 0 V.f) = 0 by unfold born; rw [hz]; simp [Cx.mag2]] at hv0
    obtain ⟨u, hu, hu0⟩ := Finset.prod_eq_zero_iff.1 hv0
    have := hb u (mem_range.1 hu)
    linarith [this.1, this.2]
  · have := h3 0 draw (by simpa using hd) y hy
    simp only [Nat.zero_add] at this
    rw [← this]; exact eq_comm

/-- **C23 (real weights).** The set of draws in `[0,1)^n` for which `measureAll` returns the string of `x` has Lebesgue
measure `|v[x]|^2 / norm^2`. -/
theorem C23_measureAll_volume {cfg : Cfg ℝ} {cs : List (Cmd ℝ)} {h : Heap ℝ} {σ : Sys ℝ} {os : List (Obs ℝ)}
    (hR : Hist cfg thr thrM cs h σ os) {v n : Nat} {V : Vec ℝ} (hv : h.vs[v]? = some V) (hV : V.k = n)
    (h0 : V.Nonzero) (c : Bool) {x : Nat} (hx : x < 2 ^ n) :
    MeasureTheory.volume {d : Fin n → ℝ | (∀ u, d u ∈ Set.Ico (0 : ℝ) 1) ∧
      Returns cfg σ (.measureAll v c fun u => if hu : u < n then d ⟨u, hu⟩ else 0) (.str (bits n x))}
      = ENNReal.ofReal (born n V.f x) := by
  obtain ⟨lo, hi, h1, h2, h3⟩ := C23_measureAll hR hv hV h0
  have hset : {d : Fin n → ℝ | (∀ u, d u ∈ Set.Ico (0 : ℝ) 1) ∧
      Returns cfg σ (.measureAll v c fun u => if hu : u < n then d ⟨u, hu⟩ else 0) (.str (bits n x))}
      = Set.pi Set.univ fun u : Fin n => Set.Ico (lo x u) (hi x u) := by
    ext d
    simp only [Set.mem_ofPred_eq, Set.mem_pi, Set.mem_univ, true_imp_iff]
    set draw : Nat → ℝ := fun u => if hu : u < n then d ⟨u, hu⟩ else 0 with hdr
    have hdu : ∀ u : Fin n, draw u = d u := fun u => by simp [hdr]
    have himp : (∀ u : Fin n, d u ∈ Set.Ico (lo x u) (hi x u)) → ∀ u, d u ∈ Set.Ico (0 : ℝ) 1 := fun hh u =>
      ⟨le_trans (h1 x u).1 (hh u).1, lt_of_lt_of_le (hh u).2 (h1 x u).2.2⟩
    have step : (∀ u, d u ∈ Set.Ico (0 : ℝ) 1) → (Returns cfg σ (.measureAll v c draw) (.str (bits n x)) ↔
        ∀ u : Fin n, d u ∈ Set.Ico (lo x u) (hi x u)) := by
      intro hd
      obtain ⟨y, hy, r1, _, r2⟩ := h3 c draw fun u hu => by
        have := hd ⟨u, hu⟩
        rw [← hdu ⟨u, hu⟩] at this
        exact this
      have e1 : Returns cfg σ (.measureAll v c draw) (.str (bits n x)) ↔ x = y := by
        constructor
        · intro hr
          have := hr.unique r1
          injection this with this
          exact bits_inj hx hy this
        · rintro rfl; exact r1
      rw [e1, r2 x hx]
      constructor
      · intro hh u; have := hh u u.2; rw [hdu u] at this; exact this
      · intro hh u hu; have := hh ⟨u, hu⟩; rw [← hdu ⟨u, hu⟩] at this; exact this
    constructor
    · rintro ⟨hd, hr⟩; exact (step hd).1 hr
    · intro hh; exact ⟨himp hh, (step (himp hh)).2 hh⟩
  rw [hset, Real.volume_pi_Ico, ← h2 x hx, ENNReal.ofReal_prod_of_nonneg (fun u _ => by linarith [(h1 x u).2.1]),
    Finset.prod_range]

/-! ## C24 -/

/-- **C24.** `measureAll`: the returned string names a basis state `x`; with `collapse` the measured state afterwards
reads out as the basis vector `x` (and any other state as before), without it every state reads out as before. -/
theorem C24_measureAll_collapse (hR : Hist cfg thr thrM cs h σ os) {v n : Nat} {V : Vec K} (hv : h.vs[v]? = some V)
    (hV : V.k = n) (h0 : V.Nonzero) (hn : n ≤ 30) (c : Bool) {draw : Nat → K}
    (hd : ∀ u < n, 0 ≤ draw u ∧ draw u < 1) {o : Obs K} {σ' : Sys K} (he : Exec cfg σ (.measureAll v c draw) o σ') :
    ∃ x < 2 ^ n, o = .str (bits n x) ∧
      (c = true → ReadsV cfg σ' v n (fun i => if i = x then 1 else 0)) ∧
      (∀ w m f, (c = false ∨ w ≠ v) → (∃ W, h.vs[w]? = some W ∧ W.k = m ∧ m ≤ 30 ∧ W.Nonzero) →
        ReadsV cfg σ w m f → ReadsV cfg σ' w m f) := by
  subst hV
  have hp : pre NQUBITS h (.measureAll v c draw) := ⟨V, hv, h0, hd⟩
  have hs : Spec.step cfg.sqrt h (.measureAll v c draw) =
      some (⟨h.vs.set v (if c then basis V.k (sample draw V.k 0 V.f) else V), h.ms⟩,
        .str (bits V.k (sample draw V.k 0 V.f))) := by
    simp only [Spec.step, hv, Option.bind_eq_bind, Option.bind_some]
  have hR' := hR.after hp hs he
  obtain ⟨hl, _⟩ := List.getElem?_eq_some_iff.1 hv
  refine ⟨sample draw V.k 0 V.f, sample_lt _ _ _ _, (hR.returns hp hs).answer _ _ he, ?_, ?_⟩
  · rintro rfl
    have := hR'.readsV (v := v) (V := basis V.k (sample draw V.k 0 V.f))
      (by simp only [if_true]; rw [List.getElem?_set_self hl]) (basis_nonzero (sample_lt _ _ _ _)) hn
    exact this
  · rintro w m f hcw ⟨W, hW, rfl, hm, hW0⟩ hf
    refine ReadsV.congr (hR'.readsV (v := w) (V := W) ?_ hW0 hm) fun i hi =>
      ((hf.unique (hR.readsV hW hW0 hm)) i hi).symm
    rcases hcw with rfl | hne
    · simp only [Bool.false_eq_true, if_false]
      rw [set_self hv]; exact hW
    · dsimp only
      rw [List.getElem?_set_ne (Ne.symm hne)]; exact hW

/-! ## C25, C26 -/

/-- Probability weight of the entries whose index has bit `q` equal to `b`. -/
def margin (n : Nat) (f : Nat → C K) (q : Nat) (b : Bool) : K :=
  ∑ i ∈ range (2 ^ n), if i.testBit q = b then (f i).mag2 else 0

/-- Squared norm. -/
def norm2 (n : Nat) (f : Nat → C K) : K := ∑ i ∈ range (2 ^ n), (f i).mag2

theorem margin_add (n : Nat) (f : Nat → C K) (q : Nat) : margin n f q false + margin n f q true = norm2 n f := by
  unfold margin norm2
  rw [← Finset.sum_add_distrib]
  refine Finset.sum_congr rfl fun i _ => ?_
  cases i.testBit q <;> simp

theorem margin_nonneg (n : Nat) (f : Nat → C K) (q : Nat) (b : Bool) : 0 ≤ margin n f q b :=
  Finset.sum_nonneg fun i _ => by split; exacts [Cx.mag2_nonneg _, le_refl _]

theorem margin_congr {n : Nat} {f g : Nat → C K} (hfg : ∀ i < 2 ^ n, f i = g i) (q : Nat) (b : Bool) :
    margin n f q b = margin n g q b := Finset.sum_congr rfl fun i hi => by rw [hfg i (mem_range.1 hi)]

theorem norm2_congr {n : Nat} {f g : Nat → C K} (hfg : ∀ i < 2 ^ n, f i = g i) : norm2 n f = norm2 n g :=
  Finset.sum_congr rfl fun i hi => by rw [hfg i (mem_range.1 hi)]

/-- **C26.** `measureOne(q)` throws iff the squared norm is off 1 by more than `eps`; otherwise it returns the weight of
the entries with bit `q` equal to 0, divided by the squared norm.  No state changes. -/
theorem C26_measureOne (hR : Hist cfg thr thrM cs h σ os) {v n q : Nat} {V : Vec K} (hv : h.vs[v]? = some V)
    (hV : V.k = n) (h0 : V.Nonzero) (hn : n ≤ 30) (hq : q < n) (eps : K) {f : Nat → C K} (hf : ReadsV cfg σ v n f) :
    Returns cfg σ (.measureOne v q eps)
      (if eps < |norm2 n f - 1| then .throw else .num (margin n f q false / norm2 n f)) ∧
    ∀ o σ', Exec cfg σ (.measureOne v q eps) o σ' → ReadsV cfg σ' v n f := by
  subst hV
  have ef := hf.unique (hR.readsV hv h0 hn)
  have hp : pre NQUBITS h (.measureOne v q eps) := ⟨V, hv, h0, hq⟩
  have hs : Spec.step cfg.sqrt h (.measureOne v q eps) =
      some (h, if eps < |V.norm2 - 1| then .throw else .num (V.marg q false / V.norm2)) := by
    simp only [Spec.step, hv, Option.bind_eq_bind, Option.bind_some]
  refine ⟨?_, fun o σ' he => ReadsV.congr ((hR.after hp hs he).readsV hv h0 hn) fun i hi => (ef i hi).symm⟩
  rw [norm2_congr ef, margin_congr ef]
  exact hR.returns hp hs

/-- **C25.** `measureOneCollapsing(q)` on a state whose squared norm is within `eps` of 1: the outcome is '0' iff the
draw is below the marginal of 0; the outcome has positive probability; the new state is the projection onto it, scaled
by `sqrt(1/marginal)`; other states are unchanged.  Otherwise it throws. -/
theorem C25_measureOneCollapsing (hR : Hist cfg thr thrM cs h σ os) {v n q : Nat} {V : Vec K}
    (hv : h.vs[v]? = some V) (hV : V.k = n) (h0 : V.Nonzero) (hn : n ≤ 30) (hq : q < n) (eps draw : K)
    (hd : 0 ≤ draw ∧ draw < 1) {f : Nat → C K} (hf : ReadsV cfg σ v n f) :
    (eps < |norm2 n f - 1| → Returns cfg σ (.measureOneCollapsing v q eps draw) .throw) ∧
    (¬ eps < |norm2 n f - 1| → ∃ b, (b = false ↔ draw < margin n f q false / norm2 n f) ∧ 0 < margin n f q b ∧
      Returns cfg σ (.measureOneCollapsing v q eps draw) (.char b) ∧
      ∀ o σ', Exec cfg σ (.measureOneCollapsing v q eps draw) o σ' → cfg.sqrt (1 / margin n f q b) ≠ 0 →
        ReadsV cfg σ' v n
          (fun i => if i.testBit q = b then f i * ⟨cfg.sqrt (1 / margin n f q b), 0⟩ else 0) ∧
        ∀ w m g, w ≠ v → (∃ W, h.vs[w]? = some W ∧ W.k = m ∧ m ≤ 30 ∧ W.Nonzero) →
          ReadsV cfg σ w m g → ReadsV cfg σ' w m g) := by
  subst hV
  have ef := hf.unique (hR.readsV hv h0 hn)
  have hp : pre NQUBITS h (.measureOneCollapsing v q eps draw) := ⟨V, hv, h0, hq, hd⟩
  rw [norm2_congr ef, margin_congr ef]
  constructor
  · intro hlt
    refine hR.returns hp (h' := h) ?_
    simp only [Spec.step, hv, Option.bind_eq_bind, Option.bind_some]
    exact if_pos hlt
  · intro hge
    set b := !decide (draw < margin V.k V.f q false / norm2 V.k V.f) with hb
    have hs : Spec.step cfg.sqrt h (.measureOneCollapsing v q eps draw) =
        some (⟨h.vs.set v (V.collapse cfg.sqrt q b), h.ms⟩, .char b) := by
      simp only [Spec.step, hv, Option.bind_eq_bind, Option.bind_some]
      exact if_neg hge
    have hN : 0 < norm2 V.k V.f := sum_pos' h0
    have hbpos : 0 < margin V.k V.f q b := by
      have hadd := margin_add V.k V.f q
      have n0 := margin_nonneg V.k V.f q false
      have n1 := margin_nonneg V.k V.f q true
      by_cases hlt : draw < margin V.k V.f q false / norm2 V.k V.f
      · have : b = false := by simp [hb, hlt]
        rw [this]
        rcases n0.eq_or_lt with hz | hz
        · rw [← hz, zero_div] at hlt; exact absurd hlt (not_lt.2 hd.1)
        · exact hz
      · have : b = true := by simp [hb, not_lt.1 hlt]
        rw [this]
        rcases n1.eq_or_lt with hz | hz
        · rw [← hz, add_zero] at hadd
          rw [hadd, div_self hN.ne'] at hlt
          exact absurd hd.2 hlt
        · exact hz
    refine ⟨b, by simp [hb], by rw [margin_congr ef]; exact hbpos, hR.returns hp hs, fun o σ' he hsq => ?_⟩
    rw [margin_congr ef] at hsq ⊢
    have hR' := hR.after hp hs he
    obtain ⟨hl, _⟩ := List.getElem?_eq_some_iff.1 hv
    refine ⟨?_, ?_⟩
    · refine ReadsV.congr (hR'.readsV (v := v) (V := V.collapse cfg.sqrt q b)
        (by rw [List.getElem?_set_self hl]) ?_ hn) fun i hi => ?_
      · have : ∃ i < 2 ^ V.k, i.testBit q = b ∧ V.f i ≠ 0 := by
          by_contra hcon
          push Not at hcon
          refine hbpos.ne' (Finset.sum_eq_zero fun i hi => ?_)
          split
          · next hbi => rw [hcon i (mem_range.1 hi) hbi]; simp [Cx.mag2]
          · rfl
        obtain ⟨i, hi, hbi, hne⟩ := this
        refine ⟨i, hi, ?_⟩
        show (if i.testBit q = b then V.f i * ⟨cfg.sqrt (1 / V.marg q b), 0⟩ else 0) ≠ 0
        rw [if_pos hbi]
        refine mul_ne_zero hne fun hz => hsq ?_
        exact congrArg Cx.r hz
      · show (if i.testBit q = b then V.f i * ⟨cfg.sqrt (1 / V.marg q b), 0⟩ else 0) = _
        rw [ef i hi]; rfl
    · rintro w m g hne ⟨W, hW, rfl, hm, hW0⟩ hg
      refine ReadsV.congr (hR'.readsV (v := w) (V := W) ?_ hW0 hm) fun i hi =>
        ((hg.unique (hR.readsV hW hW0 hm)) i hi).symm
      dsimp only
      rw [List.getElem?_set_ne (Ne.symm hne)]; exact hW

/-- **C25.** If `sqrt` is a square root at the marginal, the new state has norm 1. -/
theorem C25_norm {n q : Nat} {f : Nat → C K} {b : Bool} {s : K} (hb : 0 < margin n f q b)
    (hs : s * s = 1 / margin n f q b) :
    norm2 n (fun i => if i.testBit q = b then f i * ⟨s, 0⟩ else 0) = 1 := by
  have : norm2 n (fun i => if i.testBit q = b then f i * ⟨s, 0⟩ else 0) = margin n f q b * (s * s) := by
    unfold norm2 margin
    rw [Finset.sum_mul]
    refine Finset.sum_congr rfl fun i _ => ?_
    dsimp only
    split
    · rw [Cx.mag2_mul]; simp [Cx.mag2]
    · simp [Cx.mag2]
  rw [this, hs, mul_one_div, div_self hb.ne']

end QDD.Props
