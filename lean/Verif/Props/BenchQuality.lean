import Verif.Bench.Quality
import Mathlib.Algebra.Order.Chebyshev
import Verif.Props.Bench
import Verif.Props.Stats
import Verif.Props.ShorPost
/-!
# C69: how often one shot of the benchmark gives the factors
-/
set_option linter.unusedVariables false
set_option linter.unusedSimpArgs false

namespace QDD.Props
open Spec Api Finset Py Client Bench

/-- `r` is the order of `a` modulo `N`. -/
def IsOrder (N a r : Nat) : Prop := 0 < r ∧ a ^ r % N = 1 ∧ ∀ j, 0 < j → j < r → a ^ j % N ≠ 1

theorem IsOrder.coprime {N a r : Nat} (h : IsOrder N a r) : Nat.Coprime a N := by
  have h1 : Nat.Coprime (a ^ r) N := by
    rw [Nat.Coprime, Nat.gcd_comm, Nat.gcd_rec, h.2.1, Nat.gcd_one_left]
  exact (Nat.coprime_pow_left_iff h.1 _ _).1 h1

theorem IsOrder.red {N a r : Nat} (h : IsOrder N a r) (hN : 2 ≤ N) (x : Nat) : a ^ x % N = a ^ (x % r) % N := by
  have h1 : a ^ r ≡ 1 [MOD N] := by rw [Nat.ModEq, h.2.1, Nat.mod_eq_of_lt (by omega)]
  have : a ^ x ≡ a ^ (x % r) [MOD N] := by
    conv_lhs => rw [← Nat.mod_add_div x r, pow_add, pow_mul]
    simpa using (h1.pow (x / r)).mul_left (a ^ (x % r))
  exact this

theorem IsOrder.inj {N a r : Nat} (h : IsOrder N a r) (hN : 2 ≤ N) {s t : Nat} (hst : s ≤ t) (ht : t < r) (he : a ^ s % N = a ^ t % N) : s = t := by
  by_contra hne
  apply h.2.2 (t - s) (by omega) (by omega)
  have h1 : a ^ s * 1 ≡ a ^ s * a ^ (t - s) [MOD N] := by
    rw [← pow_add, show s + (t - s) = t by omega, mul_one]; exact he
  have h2 := Nat.ModEq.cancel_left_of_coprime (Nat.Coprime.pow_right s h.coprime.symm) h1
  rw [Nat.ModEq, Nat.mod_eq_of_lt (show 1 < N by omega)] at h2
  exact h2.symm

theorem IsOrder.iff {N a r : Nat} (h : IsOrder N a r) (hN : 2 ≤ N) {s : Nat} (hs : s < r) (x : Nat) : a ^ x % N = a ^ s % N ↔ x % r = s := by
  rw [h.red hN x]
  have hx := Nat.mod_lt x h.1
  constructor
  · intro he
    rcases Nat.le_total (x % r) s with hle | hle
    · exact h.inj hN hle hs he
    · exact (h.inj hN hle hx he.symm).symm
  · intro he; rw [he]

/-- **C69 (one multiple).** The nearest integer `z` to `k 2^(2n) / r` is read from the first register with probability at least
`(1 - 1/N)^2 / (4 r)`. -/
theorem C69_near {N a r : Nat} (hN : 2 ≤ N) (ho : IsOrder N a r) {z k : Nat}
    (hz : 2 * |(z * r : Int) - k * 2 ^ (2 * N.size)| ≤ r) :
    (1 - 1 / (N : ℝ)) ^ 2 / (4 * r) ≤ ∑ y ∈ range N, orderProb N a (2 * N.size) z y := by
  have hr := ho.1
  have hrN : r < N := order_lt (by omega) ho.1 ho.2.1 ho.2.2
  have hsz := Nat.lt_size_self N
  set m := 2 * N.size with hm
  have hQ : N * r ≤ 2 ^ m := by
    calc N * r ≤ 2 ^ N.size * 2 ^ N.size := Nat.mul_le_mul hsz.le (by omega)
      _ = 2 ^ m := by rw [← pow_add, hm]; congr 1; omega
  have hQ0 : (0 : ℝ) < 2 ^ m := by positivity
  have hrR : (0 : ℝ) < r := by exact_mod_cast hr
  have hNR : (1 : ℝ) ≤ N := by exact_mod_cast (show 1 ≤ N by omega)
  set q : ℝ := (1 - 1 / (N : ℝ)) / 2 with hq
  have hq0 : 0 ≤ q := by
    have : 1 / (N : ℝ) ≤ 1 := by rw [div_le_one (by linarith)]; exact hNR
    rw [hq]; linarith
  -- the classes
  have hcl : ∀ s ∈ range r, (((cls (2 ^ m) r s).card : ℝ) * q / 2 ^ m) ^ 2 ≤ orderProb N a m z (a ^ s % N) := by
    intro s hs
    rw [mem_range] at hs
    have h1 := cls_amp (Q := 2 ^ m) (r := r) (N := N) hs (by omega) hQ (z := z) (k := k) (d := (z * r : Int) - k * 2 ^ m)
      (by push_cast; ring) hz
    unfold orderProb
    rw [norm_div, show ‖(2 : ℂ) ^ m‖ = 2 ^ m by simp]
    apply pow_le_pow_left₀ (by positivity)
    refine div_le_div_of_nonneg_right (h1.trans (le_of_eq ?_)) hQ0.le
    congr 1
    rw [cls, Finset.sum_filter]
    refine Finset.sum_congr rfl fun x _ => ?_
    simp only [ho.iff hN hs x]
    push_cast
    rfl
  have hsub : ∑ s ∈ range r, orderProb N a m z (a ^ s % N) ≤ ∑ y ∈ range N, orderProb N a m z y := by
    have hinj : Set.InjOn (fun s => a ^ s % N) (range r : Finset ℕ) := by
      intro s hs t ht he
      simp only [coe_range, Set.mem_Iio] at hs ht
      exact ((ho.iff hN ht s).1 he ▸ (Nat.mod_eq_of_lt hs).symm)
    rw [← Finset.sum_image (f := fun y => orderProb N a m z y) hinj]
    refine Finset.sum_le_sum_of_subset_of_nonneg ?_ fun y _ _ => by unfold orderProb; positivity
    intro y hy
    obtain ⟨s, _, rfl⟩ := mem_image.1 hy
    exact mem_range.2 (Nat.mod_lt _ (by omega))
  refine le_trans ?_ (le_trans (Finset.sum_le_sum hcl) hsub)
  have hcs := sq_sum_le_card_mul_sum_sq (s := range r) (f := fun s => ((cls (2 ^ m) r s).card : ℝ))
  have htot : ∑ s ∈ range r, ((cls (2 ^ m) r s).card : ℝ) = 2 ^ m := by
    have := cls_total (Q := 2 ^ m) hr
    exact_mod_cast this
  rw [htot, card_range] at hcs
  have hsum : ∑ s ∈ range r, (((cls (2 ^ m) r s).card : ℝ) * q / 2 ^ m) ^ 2 = (q / 2 ^ m) ^ 2 * ∑ s ∈ range r, ((cls (2 ^ m) r s).card : ℝ) ^ 2 := by
    rw [Finset.mul_sum]
    refine Finset.sum_congr rfl fun s _ => by ring
  rw [hsum]
  have h3 : (2 ^ m : ℝ) ^ 2 / r ≤ ∑ s ∈ range r, ((cls (2 ^ m) r s).card : ℝ) ^ 2 := by
    rw [div_le_iff₀ hrR, mul_comm]; exact hcs
  calc (1 - 1 / (N : ℝ)) ^ 2 / (4 * r) = (q / 2 ^ m) ^ 2 * ((2 ^ m : ℝ) ^ 2 / r) := by
        rw [hq]; field_simp; ring
    _ ≤ _ := mul_le_mul_of_nonneg_left h3 (by positivity)

/-- The reading `z` is nearest to a nonzero multiple of `2^m / r`. -/
def Good (m r z : Nat) : Prop := ∃ k, 0 < k ∧ k < r ∧ 2 * |(z * r : Int) - k * 2 ^ m| ≤ r

/-- The nearest integer. -/
def near (m r k : Nat) : Nat := (2 * k * 2 ^ m + r) / (2 * r)

theorem near_spec {m r k : Nat} (hr : 0 < r) : 2 * |(near m r k * r : Int) - k * 2 ^ m| ≤ r := by
  have h1 := Nat.div_add_mod (2 * k * 2 ^ m + r) (2 * r)
  have h2 := Nat.mod_lt (2 * k * 2 ^ m + r) (show 0 < 2 * r by omega)
  have h3 : (2 * r * near m r k : Int) + ((2 * k * 2 ^ m + r) % (2 * r) : ℕ) = 2 * k * 2 ^ m + r := by
    have : ((2 * r * near m r k + (2 * k * 2 ^ m + r) % (2 * r) : ℕ) : Int) = ((2 * k * 2 ^ m + r : ℕ) : Int) := congrArg _ h1
    rw [Nat.cast_add] at this
    rw [Nat.cast_add] at this
    push_cast at this ⊢
    exact this
  have h4 : (((2 * k * 2 ^ m + r) % (2 * r) : ℕ) : Int) < 2 * r := by exact_mod_cast h2
  have h5 : (0 : Int) ≤ ((2 * k * 2 ^ m + r) % (2 * r) : ℕ) := Int.natCast_nonneg _
  generalize (((2 * k * 2 ^ m + r) % (2 * r) : ℕ) : Int) = w at *
  rw [show (2 : Int) = |2| by rfl, ← abs_mul]
  have e : 2 * ((near m r k * r : Int) - k * 2 ^ m) = r - w := by linear_combination h3
  rw [show (|2| : Int) = 2 from rfl, e, abs_le]
  constructor <;> linarith

theorem near_inj {m r : Nat} (hr : 0 < r) (hQ : r < 2 ^ m) : Function.Injective (near m r) := by
  intro k l h
  have h1 := near_spec (m := m) (k := k) hr
  have h2 := near_spec (m := m) (k := l) hr
  rw [h] at h1
  have hQ' : (r : Int) < 2 ^ m := by exact_mod_cast hQ
  rw [show (2 : Int) * |_| = |2 * _| by rw [abs_mul]; rfl, abs_le] at h1 h2
  by_contra hne
  rcases Nat.lt_or_gt_of_ne hne with hlt | hlt
  · have h3 : (k : Int) + 1 ≤ l := by exact_mod_cast hlt
    have := mul_le_mul_of_nonneg_right h3 (show (0 : Int) ≤ 2 ^ m by positivity)
    nlinarith
  · have h3 : (l : Int) + 1 ≤ k := by exact_mod_cast hlt
    have := mul_le_mul_of_nonneg_right h3 (show (0 : Int) ≤ 2 ^ m by positivity)
    nlinarith

theorem near_lt {m r k : Nat} (hk : k < r) (hQ : r < 2 ^ m) : near m r k < 2 ^ m := by
  unfold near
  rw [Nat.div_lt_iff_lt_mul (by omega)]
  have := Nat.mul_le_mul_right (2 ^ m) (show k + 1 ≤ r from hk)
  nlinarith

open Classical in
/-- **C69 (reading).** One shot reads a number nearest to a nonzero multiple of `2^(2n) / r` with probability at least
`(1 - 1/N)^2 (r - 1) / (4 r)`. -/
theorem C69_good {N a r : Nat} (hN : 2 ≤ N) (ho : IsOrder N a r) :
    (1 - 1 / (N : ℝ)) ^ 2 * (r - 1) / (4 * r) ≤
      ∑ z ∈ (range (2 ^ (2 * N.size))).filter (Good (2 * N.size) r), ∑ y ∈ range N, orderProb N a (2 * N.size) z y := by
  have hr := ho.1
  have hrN : r < N := order_lt (by omega) ho.1 ho.2.1 ho.2.2
  have hsz := Nat.lt_size_self N
  set m := 2 * N.size with hm
  have hrQ : r < 2 ^ m := lt_of_lt_of_le (lt_trans hrN hsz) (Nat.pow_le_pow_right (by norm_num) (by omega))
  have hsub : ((range (r - 1)).image fun k => near m r (k + 1)) ⊆ (range (2 ^ m)).filter (Good m r) := by
    intro z hz
    obtain ⟨k, hk, rfl⟩ := mem_image.1 hz
    rw [mem_range] at hk
    rw [mem_filter, mem_range]
    exact ⟨near_lt (by omega) hrQ, k + 1, by omega, by omega, near_spec hr⟩
  refine le_trans ?_ (Finset.sum_le_sum_of_subset_of_nonneg hsub fun z _ _ => Finset.sum_nonneg fun y _ => by unfold orderProb; positivity)
  rw [Finset.sum_image (fun i _ j _ h => by have := near_inj hr hrQ h; omega)]
  have : ∀ k ∈ range (r - 1), (1 - 1 / (N : ℝ)) ^ 2 / (4 * r) ≤ ∑ y ∈ range N, orderProb N a m (near m r (k + 1)) y :=
    fun k _ => C69_near hN ho (near_spec hr)
  refine le_trans (le_of_eq ?_) (Finset.sum_le_sum this)
  rw [Finset.sum_const, card_range, nsmul_eq_mul, Nat.cast_sub (by omega)]
  push_cast; ring

/-- A tie cannot happen: `r` would be a multiple of `2^(m+1)`. -/
theorem Good.strict {m r z k : Nat} (hr : 0 < r) (hQ : r < 2 ^ m) (h : 2 * |(z * r : Int) - k * 2 ^ m| ≤ r) :
    2 * |(z * r : Int) - k * 2 ^ m| < r := by
  refine lt_of_le_of_ne h fun he => ?_
  have key : ∃ w : Nat, w % 2 = 1 ∧ r * w = k * 2 ^ (m + 1) := by
    rw [pow_succ]
    rcases abs_cases ((z * r : Int) - k * 2 ^ m) with ⟨h1, h2⟩ | ⟨h1, h2⟩
    · rw [h1] at he
      have hz : 1 ≤ z := by
        by_contra hc
        have : z = 0 := by omega
        rw [this] at he h2
        push_cast at he h2
        have h3 : (0 : Int) < r := by exact_mod_cast hr
        have h4 : (0 : Int) ≤ k * 2 ^ m := by positivity
        linarith
      refine ⟨2 * z - 1, by omega, ?_⟩
      zify [show 1 ≤ 2 * z by omega]
      linear_combination he
    · rw [h1] at he
      refine ⟨2 * z + 1, by omega, ?_⟩
      zify
      linear_combination -he
  obtain ⟨w, hw, hk⟩ := key
  have hd : 2 ^ (m + 1) ∣ r * w := ⟨k, by rw [hk]; ring⟩
  have hc : Nat.Coprime (2 ^ (m + 1)) w := Nat.Coprime.pow_left _ ((Nat.coprime_two_left).2 (Nat.odd_iff.2 hw))
  have := Nat.le_of_dvd hr (hc.dvd_of_dvd_mul_right hd)
  have h2 : 2 ^ (m + 1) = 2 * 2 ^ m := by ring
  omega

/-- The measured string as `post_processing` expects it: `n` characters, then the first register, most significant digit first. -/
def sampleOf (n z : Nat) : List Char :=
  List.replicate n '0' ++ (List.range (2 * n)).map fun i => if z / 2 ^ (2 * n - 1 - i) % 2 = 1 then '1' else '0'

theorem sampleOf_digits (n z : Nat) : Digits (sampleOf n z) n z := by
  intro i hi
  unfold sampleOf
  rw [List.getElem?_append_right (by simp), List.length_replicate, Nat.add_sub_cancel_left]
  simp [hi]

/-- `post_processing`, given the first register of the outcome `i`, returns two proper factors of `N`. -/
def Factored (rd : ℝ → ℝ) (N a i : Nat) : Prop :=
  ∃ f1 f2, Shor.postProcessing N a N.size (dblClose rd) (sampleOf N.size (i % 2 ^ (2 * N.size))) = .ret f1 f2 ∧ 1 < f1 ∧ 1 < f2 ∧ f1 * f2 = N

open Classical in
/-- **C69.** Let `N < 2^15` be odd, the order `r` of `a` even and `a^(r/2)` not -1 modulo `N`. The outcomes of the benchmark's circuit from
which `post_processing` finds the factors have together probability at least `(1 - 1/N)^2 (r - 1) / (4 r)`. -/
theorem C69_factors {rd : ℝ → ℝ} (hrd : Rounds rd) {N a r : Nat} (useClean : Bool) (hN : 2 ≤ N) (hodd : N % 2 = 1) (hlim : N.size ≤ 15) (ho : IsOrder N a r)
    (hr2 : r % 2 = 0) (hneg : a ^ (r / 2) % N ≠ N - 1) :
    ∃ b, orderCircuit N a useClean = some b ∧ (1 - 1 / (N : ℝ)) ^ 2 * (r - 1) / (4 * r) ≤
      ∑ i ∈ (range (2 ^ (4 * N.size + 2))).filter (Factored rd N a), b.circ.prob (keyBits (4 * N.size + 2) i) := by
  obtain ⟨b, e, -, hp⟩ := C68_circuit useClean hN ho.coprime
  refine ⟨b, e, ?_⟩
  refine le_trans (C69_good hN ho) ?_
  have hr := ho.1
  have hrN : r < N := order_lt (by omega) ho.1 ho.2.1 ho.2.2
  have hsz := Nat.lt_size_self N
  have hrQ : r < 2 ^ (2 * N.size) := lt_of_lt_of_le (lt_trans hrN hsz) (Nat.pow_le_pow_right (by norm_num) (by omega))
  have hQ0 : 0 < 2 ^ (2 * N.size) := Nat.two_pow_pos _
  have hnn : ∀ z y, 0 ≤ orderProb N a (2 * N.size) z y := fun z y => by unfold orderProb; positivity
  have hlt : ∀ z y, z < 2 ^ (2 * N.size) → y < N → z + y * 2 ^ (2 * N.size) < 2 ^ (4 * N.size + 2) := by
    intro z y hz hy
    have h1 : (y + 1) * 2 ^ (2 * N.size) ≤ 2 ^ N.size * 2 ^ (2 * N.size) := Nat.mul_le_mul_right _ (by omega)
    have h2 : 2 ^ N.size * 2 ^ (2 * N.size) ≤ 2 ^ (4 * N.size + 2) := by
      rw [← pow_add]; exact Nat.pow_le_pow_right (by norm_num) (by omega)
    rw [Nat.succ_mul] at h1
    omega
  have hmod : ∀ z y, z < 2 ^ (2 * N.size) → (z + y * 2 ^ (2 * N.size)) % 2 ^ (2 * N.size) = z := fun z y hz => by
    rw [Nat.add_mul_mod_self_right, Nat.mod_eq_of_lt hz]
  have hdiv : ∀ z y, z < 2 ^ (2 * N.size) → (z + y * 2 ^ (2 * N.size)) / 2 ^ (2 * N.size) = y := fun z y hz => by
    rw [Nat.add_mul_div_right _ _ hQ0, Nat.div_eq_of_lt hz, Nat.zero_add]
  rw [← Finset.sum_product']
  have hsub : (((range (2 ^ (2 * N.size))).filter (Good (2 * N.size) r)) ×ˢ range N).image (fun p => p.1 + p.2 * 2 ^ (2 * N.size)) ⊆
      (range (2 ^ (4 * N.size + 2))).filter (Factored rd N a) := by
    intro i hi
    obtain ⟨⟨z, y⟩, hzy, rfl⟩ := mem_image.1 hi
    rw [mem_product, mem_filter, mem_range, mem_range] at hzy
    obtain ⟨⟨hz, k, hk0, hk, hg⟩, hy⟩ := hzy
    rw [mem_filter, mem_range]
    refine ⟨hlt z y hz hy, ?_⟩
    unfold Factored
    rw [hmod z y hz]
    refine C67_factors_found_double hrd N a N.size r k z _ (by omega) hodd hsz.le hlim ho.1 ho.2.1 ho.2.2 hr2 hneg hk0 hk hz (sampleOf_digits _ _) ?_
    have hs := Good.strict hr hrQ hg
    have hs' : 2 * |(z * r : ℚ) - k * 2 ^ (2 * N.size)| < r := by exact_mod_cast hs
    have hrq : (0 : ℚ) < r := by exact_mod_cast hr
    have hQq : (0 : ℚ) < 2 ^ (2 * N.size) := by positivity
    have e1 : (z : ℚ) / 2 ^ (2 * N.size) - k / r = (z * r - k * 2 ^ (2 * N.size)) / (2 ^ (2 * N.size) * r) := by
      field_simp
    rw [e1, abs_div, abs_of_pos (mul_pos hQq hrq), div_lt_div_iff₀ (mul_pos hQq hrq) (by positivity)]
    nlinarith
  refine le_trans (le_of_eq ?_) (Finset.sum_le_sum_of_subset_of_nonneg hsub fun i hi _ => by
    rw [hp i (mem_range.1 (mem_filter.1 hi).1)]; exact hnn _ _)
  rw [Finset.sum_image]
  · refine Finset.sum_congr rfl fun p hp' => ?_
    rw [mem_product, mem_filter, mem_range, mem_range] at hp'
    rw [hp _ (hlt _ _ hp'.1.1 hp'.2), hmod _ _ hp'.1.1, hdiv _ _ hp'.1.1]
  · intro p hp1 q hq1 he
    simp only [coe_product, coe_filter, mem_range, coe_range, Set.mem_prod, Set.mem_setOf_eq, Set.mem_Iio] at hp1 hq1
    have h1 := congrArg (· % 2 ^ (2 * N.size)) he
    have h2 := congrArg (· / 2 ^ (2 * N.size)) he
    simp only [hmod _ _ hp1.1.1, hmod _ _ hq1.1.1] at h1
    simp only [hdiv _ _ hp1.1.1, hdiv _ _ hq1.1.1] at h2
    exact Prod.ext h1 h2

open Classical in
/-- Shots of a circuit of which some outcomes have together at least probability `p` give one of them with probability at least
`1 - (1 - p)^s`. -/
theorem shots_find {cfg : Cfg ℝ} {thr thrM : Nat} {cs : List (Cmd ℝ)} {h : Heap ℝ} {σ : Sys ℝ} {os : List (Obs ℝ)}
    (hR : Hist cfg thr thrM cs h σ os) (hsq : ∀ x, 0 ≤ x → cfg.sqrt x * cfg.sqrt x = x) {c : Circ} (hsup : Supported h.ms c)
    (hu : ∀ x ∈ c.data, x.op = .measure → x.cond = none) {s : Nat} (hmd : Measured c ⟨some s, false⟩) (hs : 0 < s)
    {L : Nat} (hnc : c.nc = L) {F : Nat → Prop} {p : ℝ} (hb : p ≤ ∑ i ∈ (range (2 ^ L)).filter F, c.prob (keyBits L i)) :
    ∃ x, Yields cfg (run c ⟨some s, false⟩) σ (Returned s c.nc fun keys => ∃ i < 2 ^ L, keyBits L i ∈ keys ∧ F i) x ∧
      1 - (1 - p) ^ s ≤ x := by
  refine ⟨_, C70_events hR hsq hsup (fun _ x hx ho => hu x hx ho) (o := ⟨some s, false⟩) hmd (by simp) hs rfl _, ?_⟩
  have htot := Circ.prob_total hsup.fine
  obtain ⟨G, hG⟩ : ∃ G : List Bool → Prop, ∀ k, G k ↔ ∃ i < 2 ^ (L), k = keyBits (L) i ∧ F i := ⟨_, fun _ => Iff.rfl⟩
  have hsd := some_draw htot s G
  have hge : ∑ i ∈ (range (2 ^ (L))).filter F, c.prob (keyBits (L) i) ≤
      ∑ k ∈ (allKeys c.nc).filter G, c.prob k := by
    rw [← Finset.sum_image (f := fun k => c.prob k) (g := keyBits (L))]
    · refine Finset.sum_le_sum_of_subset_of_nonneg ?_ fun k _ _ => Circ.prob_nonneg _ k
      intro k hk
      obtain ⟨i, hi, rfl⟩ := mem_image.1 hk
      rw [mem_filter, mem_range] at hi
      rw [mem_filter]
      exact ⟨mem_allKeys.2 (by rw [hnc]; simp [keyBits]), (hG _).2 ⟨i, hi.1, rfl, hi.2⟩⟩
    · intro i hi j hj hij
      rw [mem_coe, mem_filter, mem_range] at hi hj
      exact (keyBits_inj hi.1 hj.1).1 hij
  have hle1 : ∑ k ∈ (allKeys c.nc).filter G, c.prob k ≤ 1 := by
    rw [← htot]
    exact Finset.sum_le_sum_of_subset_of_nonneg (Finset.filter_subset _ _) fun k _ _ => Circ.prob_nonneg _ k
  have hpow := pow_le_pow_left₀ (sub_nonneg.2 hle1) (sub_le_sub_left (hb.trans hge) 1) s
  refine le_trans (sub_le_sub_left hpow 1) (le_of_eq ?_)
  rw [← hsd]
  refine Finset.sum_congr ?_ fun _ _ => rfl
  ext ω
  simp only [mem_filter, and_congr_right_iff]
  intro _
  constructor
  · rintro ⟨j, hj⟩
    obtain ⟨i, hi, hk, hf⟩ := (hG _).1 hj
    exact ⟨i, hi, (List.mem_ofFn' _ _).2 ⟨j, hk⟩, hf⟩
  · rintro ⟨i, hi, hk, hf⟩
    obtain ⟨j, hj⟩ := (List.mem_ofFn' _ _).1 hk
    exact ⟨j, (hG _).2 ⟨i, hi, hj, hf⟩⟩

open Classical in
/-- **C69 (shots).** After any history, the benchmark's circuit run on the backend with `s > 0` shots gives, with probability at least
`1 - (1 - (1 - 1/N)^2 (r - 1) / (4 r))^s`, at least one outcome from which `post_processing` finds the factors. -/
theorem C69_run {cfg : Cfg ℝ} {thr thrM : Nat} {cs : List (Cmd ℝ)} {h : Heap ℝ} {σ : Sys ℝ} {os : List (Obs ℝ)}
    (hR : Hist cfg thr thrM cs h σ os) (hsq : ∀ x, 0 ≤ x → cfg.sqrt x * cfg.sqrt x = x)
    {rd : ℝ → ℝ} (hrd : Rounds rd) {N a r : Nat} (useClean : Bool) (hN : 2 ≤ N) (hodd : N % 2 = 1) (hlim : N.size ≤ 15) (ho : IsOrder N a r)
    (hr2 : r % 2 = 0) (hneg : a ^ (r / 2) % N ≠ N - 1) {s : Nat} (hs : 0 < s) :
    ∃ b, orderCircuit N a useClean = some b ∧ ∃ x, Yields cfg (run b.circ ⟨some s, false⟩) σ (Returned s b.circ.nc fun keys =>
        ∃ i < 2 ^ (4 * N.size + 2), keyBits (4 * N.size + 2) i ∈ keys ∧ Factored rd N a i) x ∧
      1 - (1 - (1 - 1 / (N : ℝ)) ^ 2 * (r - 1) / (4 * r)) ^ s ≤ x := by
  obtain ⟨b, e, hn, hok, ha⟩ := order_amp useClean false hN ho.coprime
  have hsup : Supported h.ms b.circ :=
    { pos := by show 0 < 4 * b.n + 2; omega
      lim := by show 4 * b.n + 2 ≤ NQUBITS; rw [hn]; unfold NQUBITS; omega
      fine := circ_fine hok }
  obtain ⟨b', e', hb⟩ := C69_factors hrd useClean hN hodd hlim ho hr2 hneg
  rw [e] at e'; cases e'
  exact ⟨b, e, shots_find hR hsq hsup (fun x hx ho => circ_uncond b x hx) (.inr (circ_measured b)) hs
    (show 4 * b.n + 2 = _ by rw [hn]) hb⟩

open Classical in
/-- The hypotheses are met by N = 15, a = 7 (order 4, 7^2 = 4): the factors 3 and 5 are found with probability at least 1/7. -/
example : ∃ b, orderCircuit 15 7 true = some b ∧ (1 / 7 : ℝ) ≤
    ∑ i ∈ (range (2 ^ (4 * Nat.size 15 + 2))).filter (Factored (Rounding.toZero 52).rd 15 7), b.circ.prob (keyBits (4 * Nat.size 15 + 2) i) := by
  have hsz : Nat.size 15 = 4 := by decide +kernel
  obtain ⟨b, e, h⟩ := C69_factors rounds_double (N := 15) (a := 7) (r := 4) true (by norm_num) (by norm_num) (by rw [hsz]; norm_num)
    ⟨by norm_num, by norm_num, by intro j h1 h2; interval_cases j <;> norm_num⟩ (by norm_num) (by norm_num)
  exact ⟨b, e, le_trans (by norm_num) h⟩

open Classical in
/-- Ten shots for N = 15, a = 7 succeed with probability more than 3/4. -/
example {cfg : Cfg ℝ} {thr thrM : Nat} {cs : List (Cmd ℝ)} {h : Heap ℝ} {σ : Sys ℝ} {os : List (Obs ℝ)}
    (hR : Hist cfg thr thrM cs h σ os) (hsq : ∀ x, 0 ≤ x → cfg.sqrt x * cfg.sqrt x = x) :
    ∃ b, orderCircuit 15 7 true = some b ∧ ∃ x, Yields cfg (run b.circ ⟨some 10, false⟩) σ (Returned 10 b.circ.nc fun keys =>
        ∃ i < 2 ^ (4 * Nat.size 15 + 2), keyBits (4 * Nat.size 15 + 2) i ∈ keys ∧ Factored (Rounding.toZero 52).rd 15 7 i) x ∧ 3 / 4 < x := by
  have hsz : Nat.size 15 = 4 := by decide +kernel
  obtain ⟨b, e, x, hy, hx⟩ := C69_run hR hsq rounds_double (N := 15) (a := 7) (r := 4) true (by norm_num) (by norm_num) (by rw [hsz]; norm_num)
    ⟨by norm_num, by norm_num, by intro j h1 h2; interval_cases j <;> norm_num⟩ (by norm_num) (by norm_num) (s := 10) (by norm_num)
  exact ⟨b, e, x, hy, lt_of_lt_of_le (by norm_num) hx⟩

end QDD.Props
