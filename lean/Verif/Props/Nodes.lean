import Verif.Props.Storage
import Verif.Props.Demo2
/-!
# C64: the number of nodes of a state
-/

set_option linter.unusedSectionVars false
set_option linter.unusedVariables false
set_option linter.unusedSimpArgs false

namespace QDD.Props
open Spec Api Finset ExactW

variable {K : Type} [Field K] [LinearOrder K] [IsStrictOrderedRing K]
variable {cfg : Cfg K} {thr thrM : Nat} {cs : List (Cmd K)} {h : Heap K} {σ : Sys K} {os : List (Obs K)}

/-! ## Specification -/

/-- The part of the state with the upper qubits fixed to `a`: a vector on the lower `l` qubits. -/
def part (V : Vec K) (l a i : Nat) : C K := V.f (2 ^ l * a + i)

/-- The part is not zero. -/
def PartNonzero (V : Vec K) (l a : Nat) : Prop := ∃ i < 2 ^ l, part V l a i ≠ 0

/-- The parts are multiples of each other. -/
def Parallel (V : Vec K) (l a b : Nat) : Prop := ∃ c : C K, c ≠ 0 ∧ ∀ i < 2 ^ l, part V l a i = c * part V l b i

open Classical in
/-- The number of nonzero parts on `l` qubits, parts that are multiples of each other counted once. -/
noncomputable def shapes (V : Vec K) (l : Nat) : Nat :=
  ((range (2 ^ (V.k - l))).filter fun a => PartNonzero V l a ∧ ∀ b < a, PartNonzero V l b → ¬ Parallel V l b a).card

theorem Parallel.symm {V : Vec K} {l a b : Nat} (h : Parallel V l a b) : Parallel V l b a := by
  obtain ⟨c, h0, h⟩ := h
  refine ⟨c⁻¹, inv_ne_zero h0, fun i hi => ?_⟩
  rw [h i hi]; field_simp

theorem Parallel.trans {V : Vec K} {l a b d : Nat} (h : Parallel V l a b) (h' : Parallel V l b d) : Parallel V l a d := by
  obtain ⟨c, h0, h⟩ := h
  obtain ⟨c', h0', h'⟩ := h'
  exact ⟨c * c', mul_ne_zero h0 h0', fun i hi => by rw [h i hi, h' i hi]; ring⟩

theorem Parallel.refl (V : Vec K) (l a : Nat) : Parallel V l a a := ⟨1, one_ne_zero, fun i _ => (one_mul _).symm⟩

theorem Parallel.nonzero {V : Vec K} {l a b : Nat} (h : Parallel V l a b) (hb : PartNonzero V l b) : PartNonzero V l a := by
  obtain ⟨c, h0, h⟩ := h
  obtain ⟨i, hi, hne⟩ := hb
  exact ⟨i, hi, by rw [h i hi]; exact mul_ne_zero h0 hne⟩

/-! ## Parts and nodes -/

section
variable {env : Env (C K)} {s : St (C K)} {V : Vec K} {e : Edge (C K)}

/-- The part `a` is `w` times the vector of node `n`. -/
def Shows (env : Env (C K)) (s : St (C K)) (V : Vec K) (root : Option Nat) (l a : Nat) (w : C K) (n : Option Nat) : Prop :=
  (∀ i < 2 ^ l, part V l a i = w * vptr s.vt.mem l n i) ∧ (w ≠ 0 → VPtrOk env s l n ∧ Reach env.hv s.vt root n)

theorem shows_child (hi : Inv env s) {l a : Nat} {w : C K} {n root : Option Nat} (h : Shows env s V root (l + 1) a w n) (b : Bool) :
    ∃ w' n', Shows env s V root l (2 * a + bit b) w' n' ∧
      ∀ p nd, n = some p → s.vt.mem p = some nd → w ≠ 0 → (nd.child b).w ≠ 0 → w' ≠ 0 ∧ n' = (nd.child b).n := by
  have hidx : ∀ i, 2 ^ l * (2 * a + bit b) + i = 2 ^ (l + 1) * a + bidx l b i := by
    intro i; unfold bidx bit; cases b <;> simp [pow_succ] <;> ring
  by_cases hw : w = 0
  · refine ⟨0, none, ⟨fun i hi => ?_, fun h => absurd rfl h⟩, fun _ _ _ _ h => absurd hw h⟩
    have := h.1 (bidx l b i) (bidx_lt hi b)
    unfold part at this ⊢
    rw [hidx, this, hw, zero_mul, zero_mul]
  · obtain ⟨ok, hr⟩ := h.2 hw
    rcases ok with ⟨h0, _⟩ | ⟨p, nd, rfl, hp, hv⟩
    · cases h0
    have hk : nd.v = (l : Int) := by push_cast at hv; omega
    have hn := hi.vn p nd hp
    refine ⟨w * (nd.child b).w, (nd.child b).n, ⟨fun i hi' => ?_, fun hne => ⟨?_, ?_⟩⟩, ?_⟩
    · have := h.1 (bidx l b i) (bidx_lt hi' b)
      unfold part at this ⊢
      rw [hidx, this, vptr_top hp.1 b hi', vden]; ring
    · exact (hn.ok b hk).resolve_right fun h => right_ne_zero_of_mul hne h.1
    · refine .step hr hp ?_
      cases b
      · exact List.mem_cons_self
      · exact List.mem_cons_of_mem _ List.mem_cons_self
    · intro q nd' hq hm _ hcw
      cases hq
      rw [hp.1] at hm
      cases hm
      exact ⟨mul_ne_zero hw hcw, rfl⟩

/-- Every part is shown by some node. -/
theorem shows_all (hi : Inv env s) (hok : VOk env s V.k e) (hf : ∀ i < 2 ^ V.k, vden s.vt.mem V.k e i = V.f i) :
    ∀ d ≤ V.k, ∀ a < 2 ^ d, ∃ w n, Shows env s V e.n (V.k - d) a w n := by
  intro d
  induction d with
  | zero =>
    intro _ a ha
    have : a = 0 := by simpa using ha
    subst this
    refine ⟨e.w, e.n, fun i hi' => ?_, fun hne => ⟨hok.resolve_right fun h => hne h.1, .refl _⟩⟩
    unfold part
    rw [Nat.mul_zero, Nat.zero_add, ← hf i hi']; rfl
  | succ d ih =>
    intro hd a ha
    obtain ⟨w, n, h⟩ := ih (by omega) (a / 2) (by rw [pow_succ] at ha; omega)
    rw [show V.k - d = (V.k - (d + 1)) + 1 by omega] at h
    obtain ⟨w', n', h', _⟩ := shows_child hi h (decide (a % 2 = 1))
    refine ⟨w', n', ?_⟩
    have : 2 * (a / 2) + bit (decide (a % 2 = 1)) = a := by
      rcases Nat.mod_two_eq_zero_or_one a with h | h <;> simp [h, bit] <;> omega
    rwa [this] at h'

/-- Every reachable node shows some part, with a nonzero factor. -/
theorem reach_shows (hi : Inv env s) (hok : VOk env s V.k e) (hf : ∀ i < 2 ^ V.k, vden s.vt.mem V.k e i = V.f i) (hw : e.w ≠ 0)
    {n : Option Nat} (hr : Reach env.hv s.vt e.n n) : ∀ p, n = some p → ∃ nd, UTable.Reg env.hv s.vt p nd ∧
      ∃ (l a : Nat) (w : C K), nd.v = (l : Int) ∧ l < V.k ∧ a < 2 ^ (V.k - (l + 1)) ∧ w ≠ 0 ∧ Shows env s V e.n (l + 1) a w (some p) := by
  have base : VPtrOk env s V.k e.n := hok.resolve_right fun h => hw h.1
  induction hr with
  | refl =>
    intro p hp
    rcases base with ⟨_, h⟩ | ⟨q, nd, h1, h2, h3⟩
    · rw [h] at hp; cases hp
    · rw [h1] at hp; cases hp
      obtain ⟨l, hl, _⟩ := hi.vlevel h2
      have hlk : V.k = l + 1 := by omega
      refine ⟨nd, h2, l, 0, e.w, hl, by omega, by positivity, hw, ⟨fun i hi' => ?_, fun _ => ⟨.inr ⟨_, nd, rfl, h2, by omega⟩, by rw [h1]; exact .refl _⟩⟩⟩
      unfold part
      rw [Nat.mul_zero, Nat.zero_add, ← hf i (by rw [hlk]; exact hi'), ← h1, hlk]; rfl
  | @step q nd k hr hq hk ih =>
    intro p hp
    obtain ⟨nd', hq', l, a, w, hl, hlk, ha, hw', hs⟩ := ih q rfl
    have := Reg.inj hq hq'
    subst this
    obtain ⟨b, hb⟩ : ∃ b, k = nd.child b := by
      rcases List.mem_cons.1 hk with h | h
      · exact ⟨false, h⟩
      · exact ⟨true, List.mem_singleton.1 h⟩
    subst hb
    have hn := hi.vn q nd hq
    have hcw : (nd.child b).w ≠ 0 := by
      intro h0
      have : (nd.child b).n = none := by
        cases b
        · exact hn.z0 h0
        · exact hn.z1 h0
      rw [this] at hp; cases hp
    rcases hn.ok b hl with (⟨h0, hx⟩ | ⟨p', nd', h1, h2, h3⟩) | h
    · rw [hx] at hp; cases hp
    · rw [h1] at hp; cases hp
      obtain ⟨w', n', hs', he⟩ := shows_child hi hs b
      obtain ⟨e1, e2⟩ := he q nd rfl hq.1 hw' hcw
      rw [h1] at e2
      subst e2
      obtain ⟨l', hl', _⟩ := hi.vlevel h2
      have : l = l' + 1 := by omega
      subst this
      refine ⟨nd', h2, l', _, w', hl', by omega, ?_, e1, hs'⟩
      have hb : bit b ≤ 1 := by cases b <;> decide
      rw [show V.k - (l' + 1) = (V.k - (l' + 1 + 1)) + 1 by omega, pow_succ]
      omega
    · exact absurd h.1 hcw

theorem shows_parallel {root : Option Nat} {l a b : Nat} {w w' : C K} {n : Option Nat} (h : Shows env s V root l a w n) (h' : Shows env s V root l b w' n)
    (hw : w ≠ 0) (hw' : w' ≠ 0) : Parallel V l a b := by
  refine ⟨w / w', div_ne_zero hw hw', fun i hi => ?_⟩
  rw [h.1 i hi, h'.1 i hi]; field_simp

theorem parallel_shows (hi : Inv env s) {root : Option Nat} {l a b : Nat} {w w' : C K} {n n' : Option Nat} (h : Shows env s V root l a w n)
    (h' : Shows env s V root l b w' n') (hw : w ≠ 0) (hw' : w' ≠ 0) (hp : Parallel V l a b) : n = n' := by
  obtain ⟨c, hc, hp⟩ := hp
  refine (vptr_canon hi (c := c * w' / w) (h.2 hw).1 (h'.2 hw').1 (div_ne_zero (mul_ne_zero hc hw') hw) fun i hi' => ?_).1
  have := hp i hi'
  rw [h.1 i hi', h'.1 i hi'] at this
  field_simp
  linear_combination this

theorem shows_nonzero (hi : Inv env s) {root : Option Nat} {l a : Nat} {w : C K} {n : Option Nat} (h : Shows env s V root l a w n) :
    PartNonzero V l a ↔ w ≠ 0 := by
  constructor
  · rintro ⟨i, hi', hne⟩ hw
    rw [h.1 i hi', hw, zero_mul] at hne
    exact hne rfl
  · intro hw
    obtain ⟨i, hi', hne⟩ := vptr_nonzero hi (h.2 hw).1
    exact ⟨i, hi', by rw [h.1 i hi']; exact mul_ne_zero hw hne⟩

open Classical in
/-- The reachable nodes of one level are as many as the shapes. -/
theorem level_card (hi : Inv env s) (hok : VOk env s V.k e) (hf : ∀ i < 2 ^ V.k, vden s.vt.mem V.k e i = V.f i) (hw : e.w ≠ 0)
    (S : Finset Nat) (hS : ∀ p, p ∈ S ↔ Reach env.hv s.vt e.n (some p)) {l : Nat} (hl : l < V.k) :
    (S.filter fun p => ∃ nd, UTable.Reg env.hv s.vt p nd ∧ nd.v = (l : Int)).card = shapes V (l + 1) := by
  have hall := shows_all hi hok hf (V.k - (l + 1)) (by omega)
  rw [show V.k - (V.k - (l + 1)) = l + 1 by omega] at hall
  have hch : ∀ a : Nat, ∃ w : C K, ∃ n : Option Nat, a < 2 ^ (V.k - (l + 1)) → Shows env s V e.n (l + 1) a w n := by
    intro a
    by_cases ha : a < 2 ^ (V.k - (l + 1))
    · obtain ⟨w, n, h⟩ := hall a ha
      exact ⟨w, n, fun _ => h⟩
    · exact ⟨0, none, fun h => absurd h ha⟩
  choose wt nd0 hsh using hch
  have node : ∀ a, a < 2 ^ (V.k - (l + 1)) → PartNonzero V (l + 1) a → ∃ p nd, nd0 a = some p ∧ UTable.Reg env.hv s.vt p nd ∧ nd.v = (l : Int) := by
    intro a ha hnz
    have hwt := (shows_nonzero hi (hsh a ha)).1 hnz
    rcases ((hsh a ha).2 hwt).1 with ⟨h, _⟩ | ⟨p, nd, h1, h2, h3⟩
    · cases h
    · exact ⟨p, nd, h1, h2, by push_cast at h3; omega⟩
  symm
  unfold shapes
  refine Finset.card_bij (fun a _ => (nd0 a).getD 0) ?_ ?_ ?_
  · intro a ha
    obtain ⟨ha, hnz, _⟩ := mem_filter.1 ha
    have ha := mem_range.1 ha
    obtain ⟨p, nd, h1, h2, h3⟩ := node a ha hnz
    have hwt := (shows_nonzero hi (hsh a ha)).1 hnz
    rw [h1]
    refine mem_filter.2 ⟨(hS _).2 ?_, nd, h2, h3⟩
    have := ((hsh a ha).2 hwt).2
    rwa [h1] at this
  · intro a ha b hb hab
    obtain ⟨ha, hna, hfa⟩ := mem_filter.1 ha
    obtain ⟨hb, hnb, hfb⟩ := mem_filter.1 hb
    have ha := mem_range.1 ha
    have hb := mem_range.1 hb
    obtain ⟨p, nd, h1, h2, h3⟩ := node a ha hna
    obtain ⟨q, nd', h1', h2', h3'⟩ := node b hb hnb
    have hpq : nd0 a = nd0 b := by
      rw [h1, h1'] at hab ⊢
      exact congrArg some hab
    have sa := hsh a ha
    have sb := hsh b hb
    have wa := (shows_nonzero hi sa).1 hna
    have wb := (shows_nonzero hi sb).1 hnb
    rw [hpq] at sa
    have hpar := shows_parallel sa sb wa wb
    rcases Nat.lt_trichotomy a b with h | h | h
    · exact absurd hpar (hfb a h hna)
    · exact h
    · exact absurd hpar.symm (hfa b h hnb)
  · intro p hp
    obtain ⟨hp, nd, hnd, hv⟩ := mem_filter.1 hp
    obtain ⟨nd', hnd', l', a, w, hl', _, ha, hwne, hs⟩ := reach_shows hi hok hf hw ((hS p).1 hp) p rfl
    have := Reg.inj hnd hnd'
    subst this
    have : l' = l := by omega
    subst this
    have hna : PartNonzero V (l' + 1) a := (shows_nonzero hi hs).2 hwne
    -- the first part parallel to `a`
    have hex : ∃ b, b < 2 ^ (V.k - (l' + 1)) ∧ Parallel V (l' + 1) b a := ⟨a, ha, .refl _ _ _⟩
    obtain ⟨hb, hba⟩ := Nat.find_spec hex
    refine ⟨Nat.find hex, mem_filter.2 ⟨mem_range.2 hb, hba.nonzero hna, fun c hc hnc hpar => ?_⟩, ?_⟩
    · exact Nat.find_min hex hc ⟨by omega, hpar.trans hba⟩
    · have hnb := hba.nonzero hna
      have := parallel_shows hi (hsh _ hb) hs ((shows_nonzero hi (hsh _ hb)).1 hnb) hwne hba
      rw [this]; rfl

end

/-- **C64.** In every reachable state, `get_nNodes` of a nonzero state is the number of its nonzero parts on 1, …, n
qubits, parts that are multiples of each other counted once. -/
theorem C64_node_count (hR : Hist cfg thr thrM cs h σ os) {v : Nat} {V : Vec K} (hv : h.vs[v]? = some V) (h0 : V.Nonzero) :
    ∃ e, σ.d.vs[v]? = some e ∧ getNNodes σ.st e = .ok (∑ l ∈ range V.k, shapes V (l + 1)) := by
  classical
  have hi := hR.rel.inv
  obtain ⟨e, he, rel⟩ := forall₂_get hR.rel.data.vs hv
  obtain ⟨lst, hc, hnd, hmem⟩ := getNNodes_spec hi rel.2.1
  have hf := rel.2.2
  have hw : e.w ≠ 0 := by
    obtain ⟨i, hi', hne⟩ := h0
    rw [← hf i hi'] at hne
    exact left_ne_zero_of_mul hne
  refine ⟨e, he, ?_⟩
  rw [hc]
  congr 1
  have hS : ∀ p, p ∈ lst.toFinset ↔ Reach cfg.env.hv σ.st.vt e.n (some p) := fun p => by rw [List.mem_toFinset]; exact hmem p
  rw [← List.toFinset_card_of_nodup hnd, ← Finset.sum_congr rfl fun l hl => level_card hi rel.2.1 hf hw lst.toFinset hS (mem_range.1 hl)]
  rw [← Finset.card_biUnion]
  · congr 1
    ext p
    rw [mem_biUnion]
    constructor
    · intro hp
      obtain ⟨nd, hnd, l, a, w, h1, h2, _⟩ := reach_shows hi rel.2.1 hf hw ((hS p).1 hp) p rfl
      exact ⟨l, mem_range.2 h2, mem_filter.2 ⟨hp, nd, hnd, h1⟩⟩
    · rintro ⟨l, _, hp⟩
      exact (mem_filter.1 hp).1
  · intro l _ l' _ hne
    refine Finset.disjoint_left.2 fun p hp hp' => ?_
    obtain ⟨_, nd, h1, h2⟩ := mem_filter.1 hp
    obtain ⟨_, nd', h1', h2'⟩ := mem_filter.1 hp'
    have := Reg.inj h1 h1'
    subst this
    exact hne (by omega)

open Classical in
theorem shapes_le (V : Vec K) (l : Nat) : shapes V l ≤ 2 ^ (V.k - l) := by
  unfold shapes
  exact (card_filter_le _ _).trans (by rw [card_range])

/-- **C64 (bound).** Never more than 2^n - 1 nodes. -/
theorem C64_node_bound (hR : Hist cfg thr thrM cs h σ os) {v : Nat} {V : Vec K} (hv : h.vs[v]? = some V) (h0 : V.Nonzero) :
    ∃ e N, σ.d.vs[v]? = some e ∧ getNNodes σ.st e = .ok N ∧ N + 1 ≤ 2 ^ V.k := by
  obtain ⟨e, he, hN⟩ := C64_node_count hR hv h0
  refine ⟨e, _, he, hN, ?_⟩
  have h1 : ∑ l ∈ range V.k, shapes V (l + 1) ≤ ∑ l ∈ range V.k, 2 ^ (V.k - (l + 1)) := Finset.sum_le_sum fun l _ => shapes_le V _
  have h2 : ∀ n, ∑ l ∈ range n, 2 ^ (n - (l + 1)) + 1 = 2 ^ n := by
    intro n
    have : ∑ l ∈ range n, 2 ^ (n - (l + 1)) = ∑ l ∈ range n, 2 ^ l := by
      rw [← Finset.sum_range_reflect]
      exact Finset.sum_congr rfl fun l hl => by have := mem_range.1 hl; congr 1; omega
    rw [this]
    induction n with
    | zero => rfl
    | succ n ih => 
      rw [Finset.sum_range_succ, pow_succ]
      have := ih (by
        rw [← Finset.sum_range_reflect]
        exact Finset.sum_congr rfl fun l hl => by have := mem_range.1 hl; congr 1; omega)
      omega
  have := h2 V.k
  omega

/-- **C64 (product states).** A product of n one-qubit states takes exactly n nodes. -/
theorem C64_product (hR : Hist cfg thr thrM cs h σ os) {v : Nat} {V : Vec K} (hv : h.vs[v]? = some V) (h0 : V.Nonzero)
    {g : Nat → Bool → C K} (hg : ∀ i < 2 ^ V.k, V.f i = ∏ q ∈ range V.k, g q (i.testBit q)) :
    ∃ e, σ.d.vs[v]? = some e ∧ getNNodes σ.st e = .ok V.k := by
  classical
  obtain ⟨e, he, hN⟩ := C64_node_count hR hv h0
  refine ⟨e, he, ?_⟩
  rw [hN]
  congr 1
  rw [Finset.sum_congr rfl (g := fun _ => 1), Finset.sum_const, card_range, smul_eq_mul, Nat.mul_one]
  intro l hl
  have hl := mem_range.1 hl
  -- split the product
  have hsplit : ∀ a < 2 ^ (V.k - (l + 1)), ∀ i < 2 ^ (l + 1), part V (l + 1) a i =
      (∏ q ∈ range (V.k - (l + 1)), g (l + 1 + q) (a.testBit q)) * ∏ q ∈ range (l + 1), g q (i.testBit q) := by
    intro a ha i hi
    have hlt : 2 ^ (l + 1) * a + i < 2 ^ V.k := by
      calc 2 ^ (l + 1) * a + i < 2 ^ (l + 1) * a + 2 ^ (l + 1) := by omega
        _ = 2 ^ (l + 1) * (a + 1) := by ring
        _ ≤ 2 ^ (l + 1) * 2 ^ (V.k - (l + 1)) := Nat.mul_le_mul_left _ ha
        _ = 2 ^ V.k := by rw [← pow_add]; congr 1; omega
    unfold part
    rw [hg _ hlt]
    have e1 : ∏ q ∈ range V.k, g q ((2 ^ (l + 1) * a + i).testBit q) = ∏ q ∈ range ((l + 1) + (V.k - (l + 1))), g q ((2 ^ (l + 1) * a + i).testBit q) := by
      rw [show l + 1 + (V.k - (l + 1)) = V.k by omega]
    rw [e1, Finset.prod_range_add, mul_comm]
    congr 1
    · refine Finset.prod_congr rfl fun q hq => ?_
      rw [Nat.testBit_two_pow_mul_add _ hi, if_neg (by omega), show l + 1 + q - (l + 1) = q by omega]
    · refine Finset.prod_congr rfl fun q hq => ?_
      rw [Nat.testBit_two_pow_mul_add _ hi, if_pos (mem_range.1 hq)]
  have hpar : ∀ a < 2 ^ (V.k - (l + 1)), ∀ b < 2 ^ (V.k - (l + 1)), PartNonzero V (l + 1) a → PartNonzero V (l + 1) b → Parallel V (l + 1) a b := by
    intro a ha b hb hna hnb
    have fac : ∀ a < 2 ^ (V.k - (l + 1)), PartNonzero V (l + 1) a → (∏ q ∈ range (V.k - (l + 1)), g (l + 1 + q) (a.testBit q)) ≠ 0 := by
      rintro a ha ⟨i, hi, hne⟩ h0
      rw [hsplit a ha i hi, h0, zero_mul] at hne
      exact hne rfl
    refine ⟨_, div_ne_zero (fac a ha hna) (fac b hb hnb), fun i hi => ?_⟩
    rw [hsplit a ha i hi, hsplit b hb i hi, ← mul_assoc, div_mul_cancel₀ _ (fac b hb hnb)]
  -- some part is not zero
  obtain ⟨i, hi, hne⟩ := h0
  have hd : i = 2 ^ (l + 1) * (i / 2 ^ (l + 1)) + i % 2 ^ (l + 1) := (Nat.div_add_mod i _).symm
  have ha : i / 2 ^ (l + 1) < 2 ^ (V.k - (l + 1)) := by
    rw [Nat.div_lt_iff_lt_mul (Nat.two_pow_pos _), ← pow_add, show V.k - (l + 1) + (l + 1) = V.k by omega]
    exact hi
  have hna : PartNonzero V (l + 1) (i / 2 ^ (l + 1)) := ⟨i % 2 ^ (l + 1), Nat.mod_lt _ (Nat.two_pow_pos _), by unfold part; rw [← hd]; exact hne⟩
  have hex : ∃ a, PartNonzero V (l + 1) a := ⟨_, hna⟩
  have hfa : Nat.find hex < 2 ^ (V.k - (l + 1)) := lt_of_le_of_lt (Nat.find_min' hex hna) ha
  unfold shapes
  rw [Finset.card_eq_one]
  refine ⟨Nat.find hex, ?_⟩
  ext a
  rw [mem_singleton, mem_filter, mem_range]
  constructor
  · rintro ⟨ha', hn', hf'⟩
    rcases Nat.lt_trichotomy a (Nat.find hex) with hlt | hlt | hlt
    · exact absurd hn' (Nat.find_min hex hlt)
    · exact hlt
    · exact absurd (hpar _ hfa _ ha' (Nat.find_spec hex) hn') (hf' _ hlt (Nat.find_spec hex))
  · rintro rfl
    exact ⟨hfa, Nat.find_spec hex, fun b hb hnb => absurd hnb (Nat.find_min hex hb)⟩

/-- The rotated state (3/5, 4/5) meets the hypotheses. -/
example (cfg : Cfg K) : ∃ σ e, Hist cfg 5 5 rotCmds rotHeap σ [.unit, .unit, .unit] ∧ σ.d.vs[1]? = some e ∧ getNNodes σ.st e = .ok 1 := by
  obtain ⟨σ, hσ⟩ := rot_hist cfg 5 5
  obtain ⟨e, h1, h2⟩ := C64_product hσ (v := 1) (V := rotV) rfl rotV_nonzero (g := fun _ b => rotG (bit b) 0) (by
    intro i hi
    have hi : i < 2 := hi
    rw [rotV_f hi, show (rotV : Vec K).k = 1 from rfl, Finset.prod_range_one]
    interval_cases i <;> rfl)
  exact ⟨σ, e, hσ, h1, h2⟩

/-- A history that makes a correlated state: `X` on qubit 1 controlled by qubit 0 of the first qubit's superposition. -/
def pairCmds : List (Cmd K) := [.zero 2, .gate 2 rotG 0 [], .mv 0 0, .gate 2 (fun r c => if r = c then 0 else 1) 1 [⟨0, false⟩], .mv 1 1]
def pairM0 : Mat K := ⟨2, Spec.gate1 2 rotG 0 []⟩
def pairM1 : Mat K := ⟨2, Spec.gate1 2 (fun r c => if r = c then 0 else 1) 1 [⟨0, false⟩]⟩
def pairV0 : Vec K := pairM0.apply (basis 2 0)
def pairV : Vec K := pairM1.apply pairV0
def pairHeap : Heap K := ⟨[basis 2 0, pairV0, pairV], [pairM0, pairM1]⟩

theorem pair_hist (cfg : Cfg K) (thr thrM : Nat) : ∃ σ, Hist cfg thr thrM pairCmds pairHeap σ [.unit, .unit, .unit, .unit, .unit] := by
  refine Hist.of_runs cfg thr thrM ?_
  have r0 : Runs cfg.sqrt NQUBITS ([] : List (Cmd K)) ⟨[], []⟩ [] := .nil
  have r1 := r0.cons (c := .zero 2) ⟨by decide, by decide⟩ rfl
  have r2 := r1.cons (c := .gate 2 rotG 0 []) ⟨by decide, by decide, by simp, by simp⟩ rfl
  have r3 := r2.cons (c := .mv 0 0) ⟨pairM0, basis 2 0, rfl, rfl, le_refl _⟩ rfl
  have r4 := r3.cons (c := .gate 2 (fun r c => if r = c then 0 else 1) 1 [⟨0, false⟩]) ⟨by decide, by decide, by simp, by simp⟩ rfl
  exact r4.cons (c := .mv 1 1) ⟨pairM1, pairV0, rfl, rfl, le_refl _⟩ rfl

theorem pair_gate : ∀ i < 4, ∀ j < 4, Spec.gate1 2 (fun r c => if r = c then (0 : C K) else 1) 1 [⟨0, false⟩] i j =
    if j = [0, 3, 2, 1].getD i 0 then 1 else 0 := by
  intro i hi j hj
  have a : (∀ b < 2, b ≠ 1 → i.testBit b = j.testBit b) ↔ i % 2 = j % 2 := by interval_cases i <;> interval_cases j <;> decide
  have b : Spec.sat [⟨0, false⟩] 2 i ↔ i % 2 = 1 := by interval_cases i <;> decide
  have c : (bit (i.testBit 1) = bit (j.testBit 1)) ↔ i / 2 = j / 2 := by interval_cases i <;> interval_cases j <;> decide
  have d : i.testBit 1 = j.testBit 1 ↔ i / 2 = j / 2 := by interval_cases i <;> interval_cases j <;> decide
  unfold Spec.gate1
  simp only [a, b, c, d]
  interval_cases i <;> interval_cases j <;> simp

theorem pairV_f : ∀ i < 4, (pairV : Vec K).f i = if i = 0 then ⟨3 / 5, 0⟩ else if i = 3 then ⟨4 / 5, 0⟩ else 0 := by
  have h0 : ∀ i < 4, (pairV0 : Vec K).f i = if i < 2 then rotG i 0 else 0 := by
    intro i hi
    show ∑ j ∈ range 4, (pairM0 : Mat K).at 2 i j * (basis 2 0 : Vec K).f j = _
    have : ∀ j < 4, (pairM0 : Mat K).at 2 i j = Spec.gate1 2 rotG 0 [] i j := by
      intro j hj
      rw [show (2 : Nat) = (pairM0 : Mat K).k from rfl, at_self pairM0 (by simpa [pairM0] using hi) (by simpa [pairM0] using hj)]; rfl
    simp only [Finset.sum_range_succ, Finset.sum_range_zero, basis]
    rw [this 0 (by decide)]
    unfold Spec.gate1
    interval_cases i
    · rw [if_pos (by decide), if_pos (by decide)]; simp [rotG, Spec.bit]
    · rw [if_pos (by decide), if_pos (by decide)]; simp [rotG, Spec.bit]
    · rw [if_neg (by decide)]; simp
    · rw [if_neg (by decide)]; simp
  have hat : ∀ i < 4, ∀ j < 4, (pairM1 : Mat K).at 2 i j = if j = [0, 3, 2, 1].getD i 0 then 1 else 0 := by
    intro i hi j hj
    rw [show (2 : Nat) = (pairM1 : Mat K).k from rfl, at_self pairM1 (by simpa [pairM1] using hi) (by simpa [pairM1] using hj)]
    exact pair_gate i hi j hj
  intro i hi
  show ∑ j ∈ range 4, (pairM1 : Mat K).at 2 i j * (pairV0 : Vec K).f j = _
  simp only [Finset.sum_range_succ, Finset.sum_range_zero]
  rw [hat i hi 0 (by decide), hat i hi 1 (by decide), hat i hi 2 (by decide), hat i hi 3 (by decide),
      h0 0 (by decide), h0 1 (by decide), h0 2 (by decide), h0 3 (by decide)]
  interval_cases i <;> simp [rotG]

theorem pairV_nonzero : (pairV : Vec K).Nonzero := by
  refine ⟨0, Nat.two_pow_pos _, ?_⟩
  rw [pairV_f 0 (by decide), if_pos rfl]
  intro h
  have := congrArg Cx.r h
  norm_num at this

/-- The correlated state (3/5, 0, 0, 4/5) takes three nodes: it meets the hypotheses and is no product. -/
example (cfg : Cfg K) : ∃ σ e, Hist cfg 5 5 pairCmds pairHeap σ [.unit, .unit, .unit, .unit, .unit] ∧ σ.d.vs[2]? = some e ∧
    getNNodes σ.st e = .ok 3 := by
  classical
  obtain ⟨σ, hσ⟩ := pair_hist cfg 5 5
  obtain ⟨e, h1, h2⟩ := C64_node_count hσ (v := 2) (V := pairV) rfl pairV_nonzero
  refine ⟨σ, e, hσ, h1, ?_⟩
  rw [h2]
  congr 1
  have n35 : (⟨3 / 5, 0⟩ : C K) ≠ 0 := fun h => by have := congrArg Cx.r h; norm_num at this
  have n45 : (⟨4 / 5, 0⟩ : C K) ≠ 0 := fun h => by have := congrArg Cx.r h; norm_num at this
  have p0 : PartNonzero (pairV : Vec K) 1 0 := ⟨0, by decide, by unfold part; rw [pairV_f _ (by decide)]; simpa using n35⟩
  have p1 : PartNonzero (pairV : Vec K) 1 1 := ⟨1, by decide, by unfold part; rw [pairV_f _ (by decide)]; simpa using n45⟩
  have np : ¬ Parallel (pairV : Vec K) 1 0 1 := by
    rintro ⟨c, _, hc⟩
    have := hc 0 (by decide)
    unfold part at this
    rw [pairV_f _ (by decide), pairV_f _ (by decide)] at this
    norm_num at this
    exact n35 this
  have s1 : shapes (pairV : Vec K) 1 = 2 := by
    unfold shapes
    rw [show (pairV : Vec K).k - 1 = 1 from rfl, Finset.filter_true_of_mem]
    · rfl
    · intro a ha
      have ha : a < 2 := mem_range.1 ha
      interval_cases a
      · exact ⟨p0, fun b hb => absurd hb (Nat.not_lt_zero _)⟩
      · refine ⟨p1, fun b hb _ => ?_⟩
        have : b = 0 := by omega
        subst this
        exact np
  have s2 : shapes (pairV : Vec K) 2 = 1 := by
    unfold shapes
    rw [show (pairV : Vec K).k - 2 = 0 from rfl, Finset.filter_true_of_mem]
    · rfl
    · intro a ha
      have : a = 0 := by simpa using ha
      subst this
      exact ⟨⟨0, by decide, by unfold part; rw [pairV_f _ (by decide)]; simpa using n35⟩, fun b hb => absurd hb (Nat.not_lt_zero _)⟩
  rw [show (pairV : Vec K).k = 2 from rfl, Finset.sum_range_succ, Finset.sum_range_one, s1, s2]

end QDD.Props
