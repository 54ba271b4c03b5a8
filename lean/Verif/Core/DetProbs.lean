import Verif.Core.Sample
/-!
# determineMeasurementProbabilities, measureOne, measureOneCollapsing: specifications
-/

set_option linter.unusedSectionVars false
set_option linter.unusedVariables false
set_option linter.unusedSimpArgs false

namespace QDD
open ExactW Prog

variable {K : Type} [Field K] [LinearOrder K] [IsStrictOrderedRing K] {env : Env (CW K)}

/-- Level (number of qubits) of a queue entry. -/
def qlv (mem : Nat → Option (VNode (CW K))) : Option Nat → Nat
  | none => 0
  | some p => match mem p with
    | none => 0
    | some nd => (nd.v + 1).toNat

theorem qlv_eq {s : St (CW K)} {k n} (h : VPtrOk env s k n) : qlv s.vt.mem n = k := by
  rcases h with ⟨rfl, rfl⟩ | ⟨p, nd, rfl, hr, hv⟩
  · rfl
  · simp only [qlv, hr.1]; omega

/-- Mass of the queue for a weighting `φ` of the basis states. -/
def qmass (mem : Nat → Option (VNode (CW K))) (pm : Option Nat → K) (φ : Nat → K) (q : List (Option Nat)) : K :=
  (q.map fun n => pm n * wsum mem (qlv mem n) n φ).sum

/-- Work left in the queue. -/
def qwork (mem : Nat → Option (VNode (CW K))) (q : List (Option Nat)) : Nat :=
  (q.map fun n => 2 ^ qlv mem n - 1).sum

/-- Queue invariant while the children of a node of level `L + 1` are handled. -/
structure Mid (env : Env (CW K)) (s : St (CW K)) (root : Option Nat) (index L : Nat) (b : Bfs K) : Prop where
  ok : ∀ n ∈ b.q, VPtrOk env s (qlv s.vt.mem n) n ∧ index < qlv s.vt.mem n
  nodup : b.q.Nodup
  sub : ∀ n ∈ b.q, n ∈ b.visited
  vis : ∀ n ∈ b.visited, n ∉ b.q → L < qlv s.vt.mem n
  sorted : b.q.Pairwise fun x y => qlv s.vt.mem y ≤ qlv s.vt.mem x
  two : ∀ n ∈ b.q, L ≤ qlv s.vt.mem n ∧ qlv s.vt.mem n ≤ L + 1
  memo : ∀ m, PInv env s m → m root ≠ none → ∀ n ∈ b.q, m n ≠ none

theorem qmass_upd_notin {mem : Nat → Option (VNode (CW K))} {pm : Option Nat → K} {φ : Nat → K} {c x} :
    ∀ {q : List (Option Nat)}, c ∉ q → qmass mem (upd pm c x) φ q = qmass mem pm φ q
  | [], _ => rfl
  | a :: q, h => by
    simp only [List.mem_cons, not_or] at h
    simp only [qmass, List.map_cons, List.sum_cons]
    rw [upd_ne _ _ _ (fun e => h.1 e.symm)]
    congr 1
    exact qmass_upd_notin h.2

theorem qmass_upd_in {mem : Nat → Option (VNode (CW K))} {pm : Option Nat → K} {φ : Nat → K} {c x} :
    ∀ {q : List (Option Nat)}, c ∈ q → q.Nodup →
      qmass mem (upd pm c (pm c + x)) φ q = qmass mem pm φ q + x * wsum mem (qlv mem c) c φ
  | a :: q, h, hd => by
    rw [List.nodup_cons] at hd
    by_cases e : a = c
    · subst e
      have := qmass_upd_notin (mem := mem) (pm := pm) (φ := φ) (x := pm a + x) hd.1
      simp only [qmass] at this
      simp only [qmass, List.map_cons, List.sum_cons, upd_same, this]
      ring
    · have hq : c ∈ q := by
        rcases List.mem_cons.1 h with h | h
        · exact absurd h.symm e
        · exact h
      have := qmass_upd_in (mem := mem) (pm := pm) (φ := φ) (x := x) hq hd.2
      simp only [qmass] at this
      simp only [qmass, List.map_cons, List.sum_cons, upd_ne _ _ _ e, this]
      ring

theorem az_iff (a : CW K) : WOps.az a = true ↔ a = 0 := by
  rw [ExactW.az_iff]

/-- One child. -/
theorem bfsChild_spec {s : St (CW K)} {root index L} {b : Bfs K} (hb : Mid env s root index L b)
    {c : Edge (CW K)} (hc : VOk env s L c) (hL : index < L) (prob : K)
    (hmemo : ∀ m, PInv env s m → m root ≠ none → m c.n ≠ none) :
    Mid env s root index L (bfsChild c prob b) ∧
    (∀ φ, qmass s.vt.mem (bfsChild c prob b).pm φ (bfsChild c prob b).q =
      qmass s.vt.mem b.pm φ b.q + prob * c.w.mag2 * wsum s.vt.mem L c.n φ) ∧
    qwork s.vt.mem (bfsChild c prob b).q ≤ qwork s.vt.mem b.q + (2 ^ L - 1) ∧
    (b.q ≠ [] ∨ c.w ≠ 0 → (bfsChild c prob b).q ≠ []) ∧
    (∀ n ∈ b.q, n ∈ (bfsChild c prob b).q) := by
  unfold bfsChild
  by_cases hz : c.w = 0
  · rw [if_pos ((az_iff _).2 hz)]
    refine ⟨hb, fun φ => by rw [hz]; simp [Cx.mag2], by omega, fun h => h.resolve_right (fun h => h hz), fun n h => h⟩
  · rw [if_neg (fun h => hz ((az_iff _).1 h))]
    have hp : VPtrOk env s L c.n := hc.resolve_right fun h => hz h.1
    have hl := qlv_eq hp
    dsimp only
    by_cases hv : c.n ∈ b.visited
    · rw [if_pos hv]
      have hq : c.n ∈ b.q := by
        by_contra h
        have := hb.vis _ hv h
        omega
      refine ⟨⟨hb.ok, hb.nodup, hb.sub, hb.vis, hb.sorted, hb.two, hb.memo⟩, fun φ => ?_, by dsimp only; omega,
        fun _ h => ?_, fun n h => h⟩
      · dsimp only; rw [qmass_upd_in hq hb.nodup, hl]
      · rw [h] at hq; cases hq
    · rw [if_neg hv]
      have hq : c.n ∉ b.q := fun h => hv (hb.sub _ h)
      refine ⟨⟨?_, ?_, ?_, ?_, ?_, ?_, ?_⟩, fun φ => ?_, ?_, ?_, ?_⟩
      · intro n hn
        rcases List.mem_append.1 hn with hn | hn
        · exact hb.ok n hn
        · rw [List.mem_singleton] at hn; subst hn; rw [hl]; exact ⟨hp, hL⟩
      · refine List.nodup_append.2 ⟨hb.nodup, by simp, ?_⟩
        intro a ha b' hb'
        rw [List.mem_singleton] at hb'; subst hb'
        rintro rfl; exact hq ha
      · intro n hn
        rcases List.mem_append.1 hn with hn | hn
        · exact List.mem_cons_of_mem _ (hb.sub n hn)
        · rw [List.mem_singleton] at hn; subst hn; exact List.mem_cons_self
      · intro n hn hn'
        simp only [List.mem_append, List.mem_singleton, not_or] at hn'
        rcases List.mem_cons.1 hn with h | h
        · exact absurd h hn'.2
        · exact hb.vis n h hn'.1
      · refine List.pairwise_append.2 ⟨hb.sorted, by simp, ?_⟩
        intro a ha b' hb'
        rw [List.mem_singleton] at hb'; subst hb'
        rw [hl]; exact (hb.two a ha).1
      · intro n hn
        rcases List.mem_append.1 hn with hn | hn
        · exact hb.two n hn
        · rw [List.mem_singleton] at hn; subst hn; omega
      · intro m h1 h2 n hn
        rcases List.mem_append.1 hn with hn | hn
        · exact hb.memo m h1 h2 n hn
        · rw [List.mem_singleton] at hn; subst hn; exact hmemo m h1 h2
      · have := qmass_upd_notin (mem := s.vt.mem) (pm := b.pm) (φ := φ) (x := prob * c.w.mag2) hq
        simp only [qmass] at this
        simp only [qmass, List.map_append, List.sum_append, this, List.map_cons, List.map_nil, List.sum_cons,
          List.sum_nil, upd_same, hl, add_zero]
      · simp [qwork, hl]
      · intro _ h; simp at h
      · intro n h; exact List.mem_append_left _ h

/-- Weightings that do not look at the bits above `index`. -/
def LowW (index : Nat) (φ : Nat → K) : Prop := ∀ m i, index < m → φ (2 ^ m + i) = φ i

/-- Loop invariant of the breadth-first search. -/
structure BInv (env : Env (CW K)) (s : St (CW K)) (e : Edge (CW K)) (k index : Nat) (b : Bfs K) : Prop where
  ok : ∀ n ∈ b.q, VPtrOk env s (qlv s.vt.mem n) n ∧ index < qlv s.vt.mem n
  nodup : b.q.Nodup
  sub : ∀ n ∈ b.q, n ∈ b.visited
  vis : ∀ n ∈ b.visited, n ∉ b.q → ∀ x ∈ b.q, qlv s.vt.mem x ≤ qlv s.vt.mem n
  sorted : b.q.Pairwise fun x y => qlv s.vt.mem y ≤ qlv s.vt.mem x
  two : ∀ x ∈ b.q, ∀ y ∈ b.q, qlv s.vt.mem x ≤ qlv s.vt.mem y + 1
  memo : ∀ m, PInv env s m → m e.n ≠ none → ∀ n ∈ b.q, m n ≠ none
  ne : b.q ≠ []
  mass : ∀ φ, LowW index φ → qmass s.vt.mem b.pm φ b.q = e.w.mag2 * wsum s.vt.mem k e.n φ

theorem VPtrOk.node {s : St (CW K)} {k n} (h : VPtrOk env s (k + 1) n) :
    ∃ p nd, n = some p ∧ UTable.Reg env.hv s.vt p nd ∧ nd.v = (k : Int) := by
  rcases h with ⟨h, _⟩ | ⟨p, nd, h1, h2, h3⟩
  · cases h
  · exact ⟨p, nd, h1, h2, by push_cast at h3; omega⟩

theorem bfsLoop_spec {s : St (CW K)} (hi : Inv env s) {e : Edge (CW K)} {k index : Nat} :
    ∀ (f : Nat) (b : Bfs K), BInv env s e k index b → qwork s.vt.mem b.q ≤ f →
    ∃ b', bfsLoop s.vt.mem index f b = .ok b' ∧ BInv env s e k index b' ∧
      ∀ n ∈ b'.q, qlv s.vt.mem n = index + 1 := by
  intro f
  induction f with
  | zero =>
    intro b hb hw
    cases hq : b.q with
    | nil => exact absurd hq hb.ne
    | cons n qs =>
      have hn := hb.ok n (by rw [hq]; exact List.mem_cons_self)
      rw [hq] at hw
      simp only [qwork, List.map_cons, List.sum_cons] at hw
      have : 2 ^ 1 ≤ 2 ^ qlv s.vt.mem n := Nat.pow_le_pow_right (by omega) (by omega)
      omega
  | succ f ih =>
    intro b hb hw
    cases hq : b.q with
    | nil => exact absurd hq hb.ne
    | cons n qs =>
      have hmem : n ∈ b.q := by rw [hq]; exact List.mem_cons_self
      have hn := hb.ok n hmem
      obtain ⟨L, hL⟩ : ∃ L, qlv s.vt.mem n = L + 1 := ⟨qlv s.vt.mem n - 1, by omega⟩
      have hn1 := hn.1
      rw [hL] at hn1
      obtain ⟨p, nd, rfl, hr, hv⟩ := hn1.node
      have hsorted := hb.sorted
      rw [hq] at hsorted
      rw [List.pairwise_cons] at hsorted
      have hnodup := hb.nodup
      rw [hq] at hnodup
      rw [List.nodup_cons] at hnodup
      unfold bfsLoop
      rw [hq]
      dsimp only
      rw [hr.1]
      dsimp only
      by_cases hvi : nd.v = (index : Int)
      · rw [if_pos hvi]
        refine ⟨b, rfl, hb, fun x hx => ?_⟩
        have h1 := (hb.ok x hx).2
        rw [hq] at hx
        rcases List.mem_cons.1 hx with rfl | hx
        · omega
        · have := hsorted.1 x hx; omega
      · rw [if_neg hvi]
        have hLi : index < L := by omega
        have hqs : ∀ x ∈ qs, x ∈ b.q := fun x hx => by rw [hq]; exact List.mem_cons_of_mem _ hx
        have hmid : Mid env s e.n index L { b with q := qs } := by
          refine ⟨fun x hx => hb.ok x (hqs x hx), hnodup.2, fun x hx => hb.sub x (hqs x hx), ?_, hsorted.2, ?_,
            fun m h1 h2 x hx => hb.memo m h1 h2 x (hqs x hx)⟩
          · intro x hx hx'
            by_cases hxp : x = some p
            · subst hxp; omega
            · have : x ∉ b.q := by
                rw [hq]; exact fun h => (List.mem_cons.1 h).elim hxp hx'
              have := hb.vis x hx this _ hmem
              omega
          · intro x hx
            have h1 := hsorted.1 x hx
            have h2 := hb.two _ hmem _ (hqs x hx)
            omega
        have hmemo : ∀ m, PInv env s m → m e.n ≠ none → ∀ bb, m (nd.child bb).n ≠ none :=
          fun m h1 h2 bb => h1.child hr (hb.memo m h1 h2 _ hmem) bb
        obtain ⟨a1, a2, a3, a4, a5⟩ := bfsChild_spec hmid ((hi.vn p nd hr).ok false hv) hLi (b.pm (some p))
          (fun m h1 h2 => hmemo m h1 h2 false)
        obtain ⟨c1, c2, c3, c4, c5⟩ := bfsChild_spec a1 ((hi.vn p nd hr).ok true hv) hLi (b.pm (some p))
          (fun m h1 h2 => hmemo m h1 h2 true)
        simp only [VNode.child, Bool.false_eq_true, if_false, if_true] at a1 a2 a3 a4 a5 c1 c2 c3 c4 c5
        generalize hb2 : bfsChild nd.c1 (b.pm (some p)) (bfsChild nd.c0 (b.pm (some p)) { b with q := qs }) = b2 at *
        apply ih b2
        · refine ⟨c1.ok, c1.nodup, c1.sub, ?_, c1.sorted, ?_, c1.memo, ?_, ?_⟩
          · intro x hx hx' y hy
            have h1 := c1.vis x hx hx'
            have h2 := (c1.two y hy).2
            omega
          · intro x hx y hy
            have h1 := (c1.two x hx).2
            have h2 := (c1.two y hy).1
            omega
          · apply c4
            by_cases h1 : nd.c1.w = 0
            · left; apply a4; right
              intro h0
              have := (hi.vn p nd hr).max
              rw [h0, h1] at this
              simp at this
            · exact .inr h1
          · intro φ hφ
            rw [c2, a2, ← hb.mass φ hφ, hq]
            have hm : qmass s.vt.mem b.pm φ (some p :: qs) =
                b.pm (some p) * wsum s.vt.mem (L + 1) (some p) φ + qmass s.vt.mem b.pm φ qs := by
              simp only [qmass, List.map_cons, List.sum_cons, hL]
            rw [hm, wsum_succ hr.1, show (fun i => φ (2 ^ L + i)) = φ from funext fun i => hφ L i hLi]
            ring
        · rw [hq] at hw
          have hw' : qwork s.vt.mem (some p :: qs) = (2 ^ (L + 1) - 1) + qwork s.vt.mem qs := by
            simp only [qwork, List.map_cons, List.sum_cons, hL]
          rw [hw'] at hw
          have : 2 ^ (L + 1) = 2 ^ L + 2 ^ L := by rw [pow_succ]; omega
          have := Nat.two_pow_pos L
          omega

/-- The basis states whose bit `index` is `b`. -/
def bitW (index : Nat) (b : Bool) (i : Nat) : K := if i.testBit index = b then 1 else 0

theorem bitW_low (index : Nat) (b : Bool) : LowW index (bitW (K := K) index b) := by
  intro m i hm
  unfold bitW
  rw [Nat.testBit_two_pow_add_gt hm]

theorem wsum_bit {mem : Nat → Option (VNode (CW K))} {j p nd} (hm : mem p = some nd) (b : Bool) :
    wsum mem (j + 1) (some p) (bitW j b) = (nd.child b).w.mag2 * nrm mem j (nd.child b).n := by
  rw [wsum_succ hm]
  have h0 : wsum mem j nd.c0.n (bitW j b) = if b then 0 else nrm mem j nd.c0.n := by
    cases b
    · exact wsum_congr fun i hi => by simp [bitW, testBit_lt hi]
    · simp only [if_true]
      unfold wsum
      rw [bsum_congr (g := fun _ => 0) (fun i hi => by simp [bitW, testBit_lt hi]), bsum_zero]
  have h1 : wsum mem j nd.c1.n (fun i => bitW j b (2 ^ j + i)) = if b then nrm mem j nd.c1.n else 0 := by
    cases b
    · unfold wsum
      rw [bsum_congr (g := fun _ => 0) (fun i hi => by simp [bitW, testBit_add hi]), bsum_zero]; rfl
    · exact wsum_congr fun i hi => by simp [bitW, testBit_add hi]
  rw [h0, h1]
  cases b <;> simp [VNode.child]

theorem bfsSum_spec {s : St (CW K)} (hi : Inv env s) {m : Memo K} (hm : PInv env s m) {pm : Option Nat → K}
    {index : Nat} : ∀ (q : List (Option Nat)) (acc : K × K),
    (∀ n ∈ q, VPtrOk env s (qlv s.vt.mem n) n ∧ qlv s.vt.mem n = index + 1 ∧ m n ≠ none) →
    bfsSum s.vt.mem m pm q acc = .ok (acc.1 + qmass s.vt.mem pm (bitW index false) q,
      acc.2 + qmass s.vt.mem pm (bitW index true) q) := by
  intro q
  induction q with
  | nil => intro acc _; simp [bfsSum, qmass]
  | cons n qs ih =>
    intro acc h
    obtain ⟨h1, h2, h3⟩ := h n List.mem_cons_self
    rw [h2] at h1
    obtain ⟨p, nd, rfl, hr, hv⟩ := h1.node
    obtain ⟨x0, x1, g1, g2, g3, g4⟩ := hm.kids hi hr hv h3
    simp only [bfsSum, hr.1, g1, g2]
    rw [ih _ fun n hn => h n (List.mem_cons_of_mem _ hn)]
    have hq : ∀ b, qmass s.vt.mem pm (bitW index b) (some p :: qs) =
        pm (some p) * ((nd.child b).w.mag2 * nrm s.vt.mem index (nd.child b).n) +
          qmass s.vt.mem pm (bitW index b) qs := by
      intro b; simp only [qmass, List.map_cons, List.sum_cons, h2, wsum_bit hr.1]
    rw [hq, hq]
    simp only [VNode.child, Bool.false_eq_true, if_false, if_true]
    have e0 : (if WOps.az nd.c0.w = true then acc.1 else acc.1 + pm (some p) * x0 * nd.c0.w.mag2) =
        acc.1 + pm (some p) * (nd.c0.w.mag2 * nrm s.vt.mem index nd.c0.n) := by
      split
      · next hz => rw [(az_iff _).1 hz]; simp [Cx.mag2]
      · rw [← g3]; ring
    have e1 : (if WOps.az nd.c1.w = true then acc.2 else acc.2 + pm (some p) * x1 * nd.c1.w.mag2) =
        acc.2 + pm (some p) * (nd.c1.w.mag2 * nrm s.vt.mem index nd.c1.n) := by
      split
      · next hz => rw [(az_iff _).1 hz]; simp [Cx.mag2]
      · rw [← g4]; ring
    rw [e0, e1, add_assoc, add_assoc]

/-- Total squared magnitude of the basis states whose bit `index` is `b`. -/
def marg (mem : Nat → Option (VNode (CW K))) (k : Nat) (e : Edge (CW K)) (index : Nat) (b : Bool) : K :=
  bsum k fun i => if i.testBit index = b then (vden mem k e i).mag2 else 0

theorem marg_eq (mem : Nat → Option (VNode (CW K))) (k : Nat) (e : Edge (CW K)) (index : Nat) (b : Bool) :
    marg mem k e index b = e.w.mag2 * wsum mem k e.n (bitW index b) := by
  unfold marg wsum
  rw [← bsum_mul]
  refine bsum_congr fun i _ => ?_
  unfold bitW vden
  split
  · rw [Cx.mag2_mul, one_mul]
  · simp

theorem detProbs_spec {s : St (CW K)} (hi : Inv env s) {m : Memo K} (hm : PInv env s m) {k : Nat}
    {e : Edge (CW K)} (he : VPtrOk env s k e.n) {index : Nat} (hx : index < k) :
    ∃ m', detProbs s e index m = .ok (marg s.vt.mem k e index false, marg s.vt.mem k e index true, m') ∧
      PInv env s m' := by
  have hl := qlv_eq he
  have hb : BInv env s e k index ⟨upd (fun _ => 0) e.n e.w.mag2, [e.n], [e.n]⟩ := by
    refine ⟨?_, by simp, by simp, ?_, by simp, ?_, ?_, by simp, ?_⟩
    · intro n hn
      simp only [List.mem_singleton] at hn; subst hn
      rw [hl]; exact ⟨he, hx⟩
    · intro n hn hn'; exact absurd hn hn'
    · intro x hx y hy
      simp only [List.mem_singleton] at hx hy; subst hx; subst hy; omega
    · intro m _ h n hn
      simp only [List.mem_singleton] at hn; subst hn; exact h
    · intro φ _
      simp [qmass, hl]
  have hwork : qwork s.vt.mem [e.n] ≤ 2 ^ (NQUBITS + 1) := by
    simp only [qwork, List.map_cons, List.map_nil, List.sum_cons, List.sum_nil, hl]
    have : 2 ^ k ≤ 2 ^ (NQUBITS + 1) := Nat.pow_le_pow_right (by omega) (Nat.le_succ_of_le (he.le hi))
    have hge : ∀ z : Nat, 2 ^ k ≤ z → 2 ^ k - 1 + 0 ≤ z := fun z hz => by omega
    exact hge _ this
  obtain ⟨b', h1, h2, h3⟩ := bfsLoop_spec hi (2 ^ (NQUBITS + 1)) _ hb hwork
  obtain ⟨m', g1, g2, g3⟩ := memo_step hi hm he
  refine ⟨m', ?_, g2⟩
  have hs := bfsSum_spec hi g2 (pm := b'.pm) b'.q (0, 0) fun n hn =>
    ⟨(h2.ok n hn).1, h3 n hn, h2.memo m' g2 g3 n hn⟩
  unfold detProbs
  rw [h1]; dsimp only; rw [g1]; dsimp only; rw [hs]; dsimp only
  rw [h2.mass _ (bitW_low index false), h2.mass _ (bitW_low index true), marg_eq, marg_eq, zero_add, zero_add]

theorem marg_nonneg (mem : Nat → Option (VNode (CW K))) (k : Nat) (e : Edge (CW K)) (index : Nat) (b : Bool) :
    0 ≤ marg mem k e index b :=
  bsum_nonneg fun i _ => by split; exacts [Cx.mag2_nonneg _, le_refl _]

/-- The two marginals add up to the squared norm. -/
theorem marg_add (mem : Nat → Option (VNode (CW K))) (k : Nat) (e : Edge (CW K)) (index : Nat) :
    marg mem k e index false + marg mem k e index true = bsum k (fun j => (vden mem k e j).mag2) := by
  unfold marg
  rw [← bsum_add]
  refine bsum_congr fun i _ => ?_
  cases i.testBit index <;> simp

theorem marg_ext {s s' : St (CW K)} (hi : Inv env s) (he : SExt env s s') {k e} (h : VOk env s k e)
    (index : Nat) (b : Bool) : marg s'.vt.mem k e index b = marg s.vt.mem k e index b := by
  unfold marg
  exact bsum_congr fun i _ => by rw [vden_ext hi he h]

/-- Squared norm of the state a root edge denotes. -/
def norm2 (mem : Nat → Option (VNode (CW K))) (k : Nat) (e : Edge (CW K)) : K :=
  bsum k fun j => (vden mem k e j).mag2

theorem norm2_pos {s : St (CW K)} (hi : Inv env s) {k : Nat} {e : Edge (CW K)}
    (he : VPtrOk env s k e.n) (hw : e.w ≠ 0) : 0 < norm2 s.vt.mem k e := by
  unfold norm2
  rw [norm2_eq]
  exact mul_pos (mag2_pos hw) (nrm_pos hi he)

theorem measureOne_spec {s : St (CW K)} (hi : Inv env s) {m : Memo K} (hm : PInv env s m) {k : Nat}
    {e : Edge (CW K)} (he : VPtrOk env s k e.n) {index : Nat} (hx : index < k) (eps : K) :
    ∃ m', PInv env s m' ∧ measureOne s e index eps m =
      .ok (if eps < |norm2 s.vt.mem k e - 1| then none
        else some (marg s.vt.mem k e index false / norm2 s.vt.mem k e), m') := by
  obtain ⟨m', h1, h2⟩ := detProbs_spec hi hm he hx
  refine ⟨m', h2, ?_⟩
  unfold measureOne
  rw [h1]
  dsimp only
  rw [marg_add]
  unfold norm2
  split <;> rfl

/-- The projection onto the basis states whose bit `index` is `b`. -/
def projV (index : Nat) (b : Bool) (f : Nat → CW K) (i : Nat) : CW K := if i.testBit index = b then f i else 0

theorem proj_gate {k index : Nat} (hx : index < k) (b : Bool) {g : Nat → CW K}
    (hg : ∀ i i', LowEq k i i' → g i = g i') (i : Nat) :
    bsum k (fun j => gate1 k (fun r c => if r = c ∧ r = nb b then (WOps.one : CW K) else WOps.zero) index [] i j * g j)
      = projV index b g i := by
  have hlow : projV index b g i = projV index b g i := rfl
  have hpl : ∀ i i', LowEq k i i' → projV index b g i = projV index b g i' := by
    intro i i' h
    unfold projV
    rw [h index hx, hg i i' h]
  rw [← bsum_ident (fun _ => none) hpl i]
  refine bsum_congr fun j _ => ?_
  have hnb : ∀ x y : Bool, (nb x = nb y) ↔ x = y := by decide
  rw [mptr_none]
  have hmod : (i % 2 ^ k = j % 2 ^ k) ↔ LowEq k i j := by
    constructor
    · intro h c hc
      have := congrArg (·.testBit c) h
      simpa [Nat.testBit_mod_two_pow, hc] using this
    · intro h
      apply Nat.eq_of_testBit_eq
      intro c
      rw [Nat.testBit_mod_two_pow, Nat.testBit_mod_two_pow]
      by_cases hc : c < k
      · simp [hc, h c hc]
      · simp [hc]
  unfold gate1 projV
  by_cases hl : LowEq k i j
  · rw [if_pos (hmod.2 hl), if_pos (fun c hc _ => hl c hc)]
    have := hl index hx
    simp only [List.not_mem_nil, false_implies, implies_true, if_true, this, true_and, hnb]
    split <;> simp [ExactW.one_eq, ExactW.zero_eq]
  · rw [if_neg (fun h => hl (hmod.1 h)), zero_mul]
    by_cases ha : ∀ c < k, c ≠ index → i.testBit c = j.testBit c
    · rw [if_pos ha]
      have hne : i.testBit index ≠ j.testBit index := by
        intro h; apply hl; intro c hc
        by_cases hci : c = index
        · subst hci; exact h
        · exact ha c hc hci
      simp only [List.not_mem_nil, false_implies, implies_true, if_true, hnb, hne, false_and, if_false]
      rw [show (WOps.zero : CW K) = 0 from ExactW.zero_eq, zero_mul]
    · rw [if_neg ha, zero_mul]

/-- `measureOneCollapsing` of a nonzero state. -/
theorem measureOneCollapsing_sat {s : St (CW K)} (hi : Inv env s) {m : Memo K} (hm : PInv env s m) {k : Nat}
    {e : Edge (CW K)} (he : VPtrOk env s k e.n) (hw : e.w ≠ 0) {index : Nat} (hx : index < k)
    (mt : Bool) (sqrt : K → K) {eps draw : K}
    (hd : 0 ≤ draw ∧ draw < 1) :
    Sat (world env) (measureOneCollapsing env mt sqrt e index eps draw m) s (fun s' r =>
      PInv env s' r.2 ∧ if eps < |norm2 s.vt.mem k e - 1| then r.1 = none else
      ∃ one e', r.1 = some (one, e') ∧
      one = !(decide (draw < marg s.vt.mem k e index false / norm2 s.vt.mem k e)) ∧
      0 < marg s.vt.mem k e index one ∧
      VRep env s' k e' fun i => projV index one (vden s.vt.mem k e) i *
        ⟨sqrt (1 / marg s.vt.mem k e index one), 0⟩) := by
  have hk := he.le hi
  unfold measureOneCollapsing
  refine Sat.bind (Q := fun s' (r : (K × K × Memo K) × Int) => r.1.1 = marg s.vt.mem k e index false ∧
      r.1.2.1 = marg s.vt.mem k e index true ∧ PInv env s' r.1.2.2 ∧ r.2 = (k : Int) - 1) ?_ ?_
  · refine Sat.atom fun s1 tid hi1 he1 => ?_
    obtain ⟨m', h1, h2⟩ := detProbs_spec hi1 (hm.ext hi he1) (he.ext he1) hx
    refine ⟨((marg s1.vt.mem k e index false, marg s1.vt.mem k e index true, m'), (k : Int) - 1), s1, ?_, hi1, (world env).refl _, ?_⟩
    · simp only [h1, evar_spec (he.ext he1)]
    intro s' _ he'
    exact ⟨marg_ext hi he1 (.inl he) _ _, marg_ext hi he1 (.inl he) _ _, h2.ext hi1 he', rfl⟩
  · rintro s1 ⟨⟨pz, po, m'⟩, v⟩ hi1 he1 ⟨h1, h2, h3, h4⟩
    dsimp only at h1 h2 h3 h4 ⊢
    subst h1 h2 h4
    have hsum := marg_add s.vt.mem k e index
    change _ = norm2 s.vt.mem k e at hsum
    have hpos := norm2_pos hi he hw
    rw [hsum]
    by_cases heps : eps < |norm2 s.vt.mem k e - 1|
    · rw [if_pos heps]
      refine Sat.pure fun s' hi' he' => ⟨h3.ext hi1 he', ?_⟩
      rw [if_pos heps]
    rw [if_neg heps]
    have hkk : ((k : Int) - 1 + 1).toNat = k := by omega
    rw [hkk]
    generalize hone : (!(decide (draw < marg s.vt.mem k e index false / norm2 s.vt.mem k e))) = one
    have hiff : one = true ↔ marg s.vt.mem k e index false / norm2 s.vt.mem k e ≤ draw := by
      rw [← hone]; simp
    have hmpos : 0 < marg s.vt.mem k e index one := by
      refine lt_of_le_of_ne (marg_nonneg _ _ _ _ _) fun h0 => ?_
      cases one
      · have : ¬ (marg s.vt.mem k e index false / norm2 s.vt.mem k e ≤ draw) := fun h => by
          simpa using hiff.2 h
        rw [← h0, zero_div] at this
        exact this hd.1
      · have := hiff.1 rfl
        rw [← h0, add_zero] at hsum
        rw [hsum, div_self hpos.ne'] at this
        exact absurd hd.2 (not_lt.2 this)
    refine Sat.bind (makeGate_sat hi1 hx hk List.Pairwise.nil (by simp) _) fun s2 g hi2 he2 hg => ?_
    have he12 := (world env).trans he1 he2
    refine Sat.bind (mvMul_sat mt hi2 hg.1 (.inl (he.ext he12))) fun s3 x hi3 he3 hxr => ?_
    refine Sat.pure fun s' hi' he' => ⟨h3.ext hi1 ((world env).trans he2 ((world env).trans he3 he')), ?_⟩
    rw [if_neg heps]
    refine ⟨one, _, rfl, rfl, hmpos, ?_⟩
    have hxr' := hxr.ext hi3 he'
    have hnf : (if one = true then marg s.vt.mem k e index true else marg s.vt.mem k e index false) =
        marg s.vt.mem k e index one := by cases one <;> rfl
    rw [hnf]
    refine ⟨?_, fun i => ?_⟩
    · rcases hxr'.1 with h | ⟨h0, hn⟩
      · exact .inl h
      · refine .inr ⟨?_, hn⟩
        dsimp only
        rw [ExactW.mul_eq, h0, zero_mul]
    · have h5 := hxr'.2 i
      simp only [vden, ExactW.mul_eq] at h5 ⊢
      rw [mul_right_comm, h5]
      congr 1
      have h6 := proj_gate hx one (g := vden s2.vt.mem k e) (fun i i' h => by
        unfold vden; rw [vptr_congr _ _ _ h]) i
      unfold mvden
      rw [bsum_congr (fun j _ => by rw [hg.2 i j])]
      rw [h6]
      unfold projV
      rw [vden_ext hi he12 (.inl he)]

/-- The state after `measureOneCollapsing` has norm 1. -/
theorem collapsed_norm {mem mem' : Nat → Option (VNode (CW K))} {k index : Nat} {e e' : Edge (CW K)} {b : Bool}
    {c : K} (hc : c * c = 1 / marg mem k e index b) (hp : marg mem k e index b ≠ 0)
    (h : ∀ i, vden mem' k e' i = projV index b (vden mem k e) i * ⟨c, 0⟩) : norm2 mem' k e' = 1 := by
  have : norm2 mem' k e' = c * c * marg mem k e index b := by
    unfold norm2 marg
    rw [← bsum_mul]
    refine bsum_congr fun i _ => ?_
    rw [h i, Cx.mag2_mul]
    unfold projV
    have hcc : Cx.mag2 (⟨c, 0⟩ : CW K) = c * c := by simp [Cx.mag2]
    rw [hcc]
    split
    · ring
    · simp [Cx.mag2]
  rw [this, hc, one_div_mul_cancel hp]

end QDD
