import Verif.Safe.Inv
/-!
# Memory safety without exact arithmetic: vector operations under every schedule
-/

set_option linter.unusedSectionVars false
set_option linter.unusedVariables false
set_option linter.unusedSimpArgs false

namespace QDD
namespace Safe
open RoundW Prog
variable {W : Type} [WOps W] [RoundW W] {env : Env W}

theorem eeq_n {a b : Edge W} (h : eeq a b = true) : a.n = b.n := by
  simp only [eeq, Bool.and_eq_true, beq_iff_eq] at h; exact h.2

theorem upd3_some {α : Type} {c : Nat → Int → Nat → Option α} {t : Nat} {lv : Int} {key : Nat} {x y : α} {t' : Nat}
    {lv' : Int} {key' : Nat} (h : upd c t (upd (c t) lv (upd (c t lv) key (some x))) t' lv' key' = some y) :
    y = x ∨ c t' lv' key' = some y := by
  unfold upd at h
  by_cases e : t' = t
  · subst e
    simp only [if_true] at h
    by_cases e : lv' = lv
    · subst e
      simp only [if_true] at h
      split at h
      · left; exact (Option.some.inj h).symm
      · exact .inr h
    · simp only [if_neg e] at h; exact .inr h
  · simp only [if_neg e] at h; exact .inr h

/-! ## Caches -/

theorem findAV_sat {s : St W} {k : Nat} {l r : Edge W} (hk : k < NQUBITS) (hl : VPtr env s (k + 1) l.n)
    (hr : VPtr env s (k + 1) r.n) :
    Sat (world env) (findAV env l r) s (fun s' x => ∀ e, x.1 = some e → VLv env s' (k + 1) e) := by
  refine Sat.atom fun s1 tid hi he => ?_
  have hl1 := hl.ext he
  have hr1 := hr.ext he
  have h1 : (((k + 1 : Nat) : Int) - 1) = k := by push_cast; omega
  have hord : acOrder s1.vt.mem l r = .ok (l, r, (k : Int)) := by
    unfold acOrder; rw [hl1.evar, hr1.evar]; simp [h1]
  have hrng : ¬ ((k : Int) < 0 ∨ (NQUBITS : Int) ≤ k) := by omega
  have key : ∃ o, (s1.av tid).find s1.vt.mem env.hav l r = .ok o ∧ ∀ e, o = some e → VLv env s1 (k + 1) e := by
    unfold ACache.find
    simp only [hord, if_neg hrng]
    cases hc : s1.av tid (k : Int) (env.hav l r % NBUCKETS) with
    | none => exact ⟨none, rfl, fun e h => by cases h⟩
    | some e =>
      simp only
      by_cases hm : (eeq e.lhs l && eeq e.rhs r) = true
      · rw [if_pos hm]
        simp only [Bool.and_eq_true] at hm
        obtain ⟨k', a, b, c⟩ := hi.av _ _ _ _ hc
        rw [eeq_n hm.1] at a
        have := a.level hl1
        subst this
        obtain ⟨v, hv, hv'⟩ := c.evar hi
        have : v ≠ -2 := by omega
        rw [hv]
        simp only [if_pos this]
        exact ⟨_, rfl, fun x hx => by cases hx; exact c⟩
      · rw [if_neg hm]; exact ⟨none, rfl, fun e h => by cases h⟩
  obtain ⟨o, ho, hQ⟩ := key
  exact ⟨(o, tid), s1, by simp only [ho], hi, Grow.refl env s1, fun s' hi' he' e hx => (hQ e hx).ext he'⟩

theorem setAV_sat {s : St W} {k : Nat} {l r res : Edge W} (hk : k < NQUBITS) (c : Nat)
    (hl : VPtr env s (k + 1) l.n) (hr : VPtr env s (k + 1) r.n) (hres : VLv env s (k + 1) res) :
    Sat (world env) (setAV env c l r res) s (fun _ _ => True) := by
  refine Sat.atom fun s1 tid hi he => ?_
  have hl1 := hl.ext he
  have hr1 := hr.ext he
  have h1 : (((k + 1 : Nat) : Int) - 1) = k := by push_cast; omega
  have hord : acOrder s1.vt.mem l r = .ok (l, r, (k : Int)) := by
    unfold acOrder; rw [hl1.evar, hr1.evar]; simp [h1]
  have hrng : ¬ ((k : Int) < 0 ∨ (NQUBITS : Int) ≤ k) := by omega
  have hset : (s1.av c).set s1.vt.mem env.hav l r res = .ok (upd (s1.av c) k (upd (s1.av c k)
      (env.hav l r % NBUCKETS) (some ⟨l, r, res⟩))) := by
    unfold ACache.set; simp only [hord, if_neg hrng]
  have hent : AVEnt env s1 ⟨l, r, res⟩ := ⟨k + 1, hl1, hr1, hres.ext he⟩
  obtain ⟨hi', he'⟩ := hi.caches (s' := { s1 with av := (upd s1.av c (upd (s1.av c) k (upd (s1.av c k) (env.hav l r % NBUCKETS) (some ⟨l, r, res⟩)))) }) rfl rfl
    (fun tid lv key e h => by
      rcases upd3_some h with rfl | h
      · exact hent
      · exact hi.av _ _ _ _ h) hi.am hi.cv hi.cm hi.uni
  exact ⟨(), _, by simp only [hset], hi', he', fun _ _ _ => trivial⟩

/-- A bucket whose valid entries satisfy `R`. -/
def BOk (R : Option Nat → Option Nat → Edge W → Prop) (b : List (PEnt W)) : Prop :=
  ∀ e ∈ b, e.valid = true → ∃ x, e.res = some x ∧ R e.lhs e.rhs x

theorem BOk.cons {R} {e : PEnt W} {b : List (PEnt W)} (he : e.valid = true → ∃ x, e.res = some x ∧ R e.lhs e.rhs x)
    (hb : BOk R b) : BOk R (e :: b) := by
  intro x hx
  rcases List.mem_cons.1 hx with rfl | hx
  · exact he
  · exact hb x hx

theorem BOk.tail {R} {e : PEnt W} {b : List (PEnt W)} (h : BOk R (e :: b)) : BOk R b :=
  fun x hx => h x (List.mem_cons_of_mem _ hx)

theorem BOk.fresh {R} (junk : Nat → Bool) : BOk (W := W) R (freshBucket W junk) := by
  intro e he hv
  unfold freshBucket at he
  obtain ⟨i, _, rfl⟩ := List.mem_map.1 he
  cases hv

theorem bucketFind_ok {N : Type} [TNode N] {mem : Nat → Option N} {R} {l r : Option Nat}
    (hev : ∀ x : Edge W, R l r x → ∃ v, evar mem x.n = .ok v ∧ -1 ≤ v) : ∀ {b : List (PEnt W)}, BOk R b →
    ∃ o b', bucketFind mem l r b = .ok (o, b') ∧ BOk R b' ∧ ∀ x, o = some x → R l r x
  | [], h => ⟨none, [], rfl, h, fun x hx => by cases hx⟩
  | e :: es, h => by
    unfold bucketFind
    by_cases hm : (e.valid && e.lhs == l && e.rhs == r) = true
    · rw [if_pos hm]
      simp only [Bool.and_eq_true, beq_iff_eq] at hm
      obtain ⟨⟨hv, hl⟩, hr⟩ := hm
      obtain ⟨x, hx, hR⟩ := h e List.mem_cons_self hv
      rw [hl, hr] at hR
      obtain ⟨v, hv', hv2⟩ := hev x hR
      have : v ≠ -2 := by omega
      simp only [hx, hv', if_pos this]
      refine ⟨_, _, rfl, BOk.cons (fun _ => ⟨x, rfl, ?_⟩) h.tail, fun y hy => by cases hy; exact hR⟩
      simpa only [hl, hr] using hR
    · rw [if_neg hm]
      obtain ⟨o, b', h1, h2, h3⟩ := bucketFind_ok hev h.tail
      simp only [h1]
      exact ⟨o, e :: b', rfl, BOk.cons (h e List.mem_cons_self) h2, h3⟩

theorem putNull_ok {R} {l r : Option Nat} {x : Edge W} (hx : R l r x) : ∀ {b b' : List (PEnt W)}, BOk R b →
    putNull l r x b = some b' → BOk R b'
  | [], _, _, h => by cases h
  | e :: es, b', hb, h => by
    unfold putNull at h
    split at h
    · cases h
      exact BOk.cons (fun _ => ⟨x, rfl, hx⟩) hb.tail
    · cases hp : putNull l r x es with
      | none => rw [hp] at h; cases h
      | some b'' =>
        rw [hp] at h; cases h
        exact BOk.cons (hb e List.mem_cons_self) (putNull_ok hx hb.tail hp)

theorem bucketSet_ok {R} {l r : Option Nat} {x : Edge W} (hx : R l r x) {b : List (PEnt W)} (hb : BOk R b) :
    BOk R (bucketSet l r x b) := by
  unfold bucketSet
  split
  · next h => exact putNull_ok hx hb h
  · intro e he hv
    rcases List.mem_or_eq_of_mem_set he with h | rfl
    · exact hb e h hv
    · exact ⟨x, rfl, hx⟩

theorem PVEnt.at {s : St W} {k l r x} (hr : VPtr env s k r) (h : PVEnt env s l r x) : VLv env s k x := by
  obtain ⟨k', _, h2, h3⟩ := h
  have := h2.level hr
  subst this
  exact h3

theorem mlv {s : St W} (hi : Inv env s) {l : Nat} (hl : MReg env s (some l)) :
    ∃ v : Int, evar s.mt.mem (some l) = .ok v ∧ ¬ (v < 0 ∨ (NQUBITS : Int) ≤ v) := by
  obtain ⟨v, h1, h2, h3, h4, _⟩ := hl.evar hi
  exact ⟨v, h1, by have := h4 (by simp); omega⟩

theorem findPV_sat {s : St W} {k : Nat} {l : Nat} {r : Option Nat} (hl : MLv env s k (some l))
    (hr : VPtr env s k r) :
    Sat (world env) (findPV env l r) s (fun s' x => ∀ e, x.1 = some e → VLv env s' k e) := by
  refine Sat.atom fun s1 tid hi he => ?_
  have hl1 := hl.ext he
  have hr1 := hr.ext he
  obtain ⟨v, hv, hrng⟩ := mlv hi hl1.reg
  have key : ∃ o b, (s1.cv tid).find s1.mt.mem s1.vt.mem env.mur env.junkMV l r = .ok (o,
      upd (s1.cv tid) v (upd (s1.cv tid v) (env.mur l % NBUCKETS) (some b))) ∧
      BOk (PVEnt env s1) b ∧ ∀ e, o = some e → PVEnt env s1 (some l) r e := by
    unfold PCache.find
    simp only [hv, if_neg hrng]
    cases hc : s1.cv tid v (env.mur l % NBUCKETS) with
    | none => exact ⟨none, _, rfl, BOk.fresh _, fun e h => by cases h⟩
    | some b =>
      obtain ⟨o, b', h1, h2, h3⟩ := bucketFind_ok (mem := s1.vt.mem) (R := PVEnt env s1) (l := some l) (r := r)
        (fun x hx => (hx.at hr1).evar hi) (hi.cv _ _ _ _ hc)
      simp only [h1]
      exact ⟨o, b', rfl, h2, h3⟩
  obtain ⟨o, b, ho, hb, hQ⟩ := key
  obtain ⟨hi', he'⟩ := hi.caches (s' := { s1 with cv := (upd s1.cv tid (upd (s1.cv tid) v (upd (s1.cv tid v) (env.mur l % NBUCKETS) (some b)))) }) rfl rfl hi.av hi.am
    (fun tid lv key e h => by
      rcases upd3_some h with rfl | h
      · exact hb
      · exact hi.cv _ _ _ _ h) hi.cm hi.uni
  exact ⟨(o, tid), _, by simp only [ho], hi', he', fun s' _ h' e hx => ((hQ e hx).at hr1).ext (he'.trans h')⟩

theorem setPV_sat {s : St W} {k : Nat} {l : Nat} {r : Option Nat} {res : Edge W} (c : Nat)
    (hl : MLv env s k (some l)) (hr : VPtr env s k r) (hres : VLv env s k res) :
    Sat (world env) (setPV env c l r res) s (fun _ _ => True) := by
  refine Sat.atom fun s1 tid hi he => ?_
  have hl1 := hl.ext he
  have hr1 := hr.ext he
  have hres1 := hres.ext he
  obtain ⟨v, hv, hrng⟩ := mlv hi hl1.reg
  have key : ∃ b, (s1.cv c).set s1.mt.mem env.mur env.junkMV l r res = .ok (
      upd (s1.cv c) v (upd (s1.cv c v) (env.mur l % NBUCKETS) (some b))) ∧ BOk (PVEnt env s1) b := by
    unfold PCache.set
    simp only [hv, if_neg hrng]
    refine ⟨_, rfl, bucketSet_ok ⟨k, hl1, hr1, hres1⟩ ?_⟩
    cases hc : s1.cv c v (env.mur l % NBUCKETS) with
    | none => exact BOk.fresh _
    | some b => exact hi.cv _ _ _ _ hc
  obtain ⟨b, ho, hb⟩ := key
  obtain ⟨hi', he'⟩ := hi.caches (s' := { s1 with cv := (upd s1.cv c (upd (s1.cv c) v (upd (s1.cv c v) (env.mur l % NBUCKETS) (some b)))) }) rfl rfl hi.av hi.am
    (fun tid lv key e h => by
      rcases upd3_some h with rfl | h
      · exact hb
      · exact hi.cv _ _ _ _ h) hi.cm hi.uni
  exact ⟨(), _, by simp only [ho], hi', he', fun _ _ _ => trivial⟩

/-! ## Reading nodes, building edges -/

theorem readV_sat {s : St W} {p nd} (h : UTable.Reg env.hv s.vt p nd) :
    Sat (world env) (readV (some p)) s (fun _ x => x = nd) :=
  Sat.atom fun s1 tid hi he => ⟨nd, s1, by simp [(he.1 _ _ h).1], hi, Grow.refl env s1, fun _ _ _ => rfl⟩

theorem readM_sat {s : St W} {p nd} (h : UTable.Reg env.hm s.mt p nd) :
    Sat (world env) (readM (some p)) s (fun _ x => x = nd) :=
  Sat.atom fun s1 tid hi he => ⟨nd, s1, by simp [(he.2 _ _ h).1], hi, Grow.refl env s1, fun _ _ _ => rfl⟩

theorem readV_none_sat {s : St W} : Sat (world env) (readV none) s (fun _ x => x.v = -1) :=
  Sat.atom fun s1 tid hi he => ⟨_, s1, rfl, hi, Grow.refl env s1, fun _ _ _ => rfl⟩

theorem readM_none_sat {s : St W} : Sat (world env) (readM none) s (fun _ x => x.v = -1) :=
  Sat.atom fun s1 tid hi he => ⟨_, s1, rfl, hi, Grow.refl env s1, fun _ _ _ => rfl⟩

theorem mkV_sat0 {s : St W} {k : Nat} (hk : k < NQUBITS) {c0 c1 : Edge W}
    (h0 : VLv0 env s k c0) (h1 : VLv0 env s k c1) :
    Sat (world env) (mkV env k c0 c1) s (fun s' e => VLv env s' (k + 1) e) := by
  refine Sat.atom fun s1 tid hi he => ?_
  obtain ⟨e, s2, h2, hi2, he2, hr⟩ := makeVEdge_shape hi tid hk (h0.ext he) (h1.ext he)
  exact ⟨e, s2, h2, hi2, he2, fun s' _ he' => hr.ext he'⟩

theorem mkV_sat {s : St W} {k : Nat} (hk : k < NQUBITS) {c0 c1 : Edge W}
    (h0 : VLv env s k c0) (h1 : VLv env s k c1) :
    Sat (world env) (mkV env k c0 c1) s (fun s' e => VLv env s' (k + 1) e) := mkV_sat0 hk h0.lv0 h1.lv0

theorem mkM_sat {s : St W} {k : Nat} (hk : k < NQUBITS) {c0 c1 c2 c3 : Edge W} (h0 : MLv env s k c0.n)
    (h1 : MLv env s k c1.n) (h2 : MLv env s k c2.n) (h3 : MLv env s k c3.n) :
    Sat (world env) (mkM env k c0 c1 c2 c3) s (fun s' e => MLv env s' (k + 1) e.n) := by
  refine Sat.atom fun s1 tid hi he => ?_
  obtain ⟨e, s2, h2, hi2, he2, hr⟩ := makeMEdge_shape hi tid hk (h0.ext he) (h1.ext he) (h2.ext he) (h3.ext he)
  exact ⟨e, s2, h2, hi2, he2, fun s' _ he' => hr.ext he'⟩

/-! ## Sums of vectors -/

theorem vAdd_child {s : St W} (hi : Inv env s) {k : Nat} {e : Edge W} (h : VPtr env s (k + 1) e.n) :
    ∃ p nd, e.n = some p ∧ UTable.Reg env.hv s.vt p nd ∧ ∀ b, VLv env s k (vAddArg k nd e b) := by
  rcases h with ⟨h1, _⟩ | ⟨p, nd, h1, h2, h3⟩
  · cases h1
  · have hv : nd.v = (k : Int) := by push_cast at h3; omega
    refine ⟨p, nd, h1, h2, fun b => ?_⟩
    unfold vAddArg
    rw [if_pos ⟨hv, by simp [h1]⟩]
    exact (hi.vchild h2 b hv).mulL _

theorem vvAdd2_sat (fk : Nat → Bool) : ∀ {k : Nat} {s : St W} {l r : Edge W},
    k ≤ NQUBITS → VLv env s k l → VLv env s k r →
    Sat (world env) (vvAdd2 env fk k l r) s (fun s' e => VLv env s' k e) := by
  intro k
  induction k with
  | zero =>
    intro s l r hk hl hr
    refine Sat.intro fun s hi he => ?_
    replace hl := hl.ext he
    replace hr := hr.ext he
    unfold vvAdd2
    split
    · split
      · exact Sat.pure fun s' _ _ => zeroE_vlv s' 0
      · exact Sat.pure fun s' _ he => hr.ext he
    · split
      · exact Sat.pure fun s' _ he => hl.ext he
      · rw [if_pos ⟨hl.term hi, hr.term hi⟩]
        exact Sat.pure fun s' _ _ => .inl (.inl ⟨rfl, rfl⟩)
  | succ k ih =>
    intro s l r hk hl hr
    unfold vvAdd2
    split
    · split
      · exact Sat.pure fun s' _ _ => zeroE_vlv s' _
      · exact Sat.pure fun s' _ he => hr.ext he
    · next hz =>
      split
      · exact Sat.pure fun s' _ he => hl.ext he
      · next hz' =>
        split
        · next hn => exact Sat.pure fun s' _ he => .inl ((hl.ptr hz).ext he)
        · next hn =>
          have hpl := hl.ptr hz
          have hpr := hr.ptr hz'
          have hk' : k < NQUBITS := hk
          refine Sat.bind (findAV_sat hk' hpl hpr) fun s1 x hi1 he1 hx => ?_
          obtain ⟨res, c⟩ := x
          have hl1 := hpl.ext he1
          have hr1 := hpr.ext he1
          cases res with
          | some e =>
            show Sat (world env) (if WOps.az e.w = true then pure zeroE else pure e) s1 _
            split
            · exact Sat.pure fun s' _ _ => zeroE_vlv s' _
            · exact Sat.pure fun s' _ he => (hx e rfl).ext he
          | none =>
            simp only
            obtain ⟨pl, nl, el, rl, hgl⟩ := vAdd_child hi1 hl1
            obtain ⟨pr, nr, er, rr, hgr⟩ := vAdd_child hi1 hr1
            rw [el, er]
            refine Sat.bind (readV_sat rl) fun s2 nd hi2 he2 hnd => ?_
            subst hnd
            refine Sat.bind (readV_sat (he2.1 _ _ rr)) fun s3 nd' hi3 he3 hnd => ?_
            subst hnd
            have he13 : Grow env s1 s3 := he2.trans he3
            refine Sat.bind (Sat.fork (Qp := fun s' e => VLv env s' k e)
              (Qq := fun s' e => VLv env s' k e)
              (fun a b e hi _ he h => VLv.ext h he) (fun a b e hi _ he h => VLv.ext h he)
              (ih (Nat.le_of_lt hk) ((hgl false).ext he13) ((hgr false).ext he13))
              (ih (Nat.le_of_lt hk) ((hgl true).ext he13) ((hgr true).ext he13)))
              fun s4 x hi4 he4 hx4 => ?_
            obtain ⟨e0, e1⟩ := x
            refine Sat.bind (mkV_sat hk' hx4.1 hx4.2) fun s5 res hi5 he5 hres => ?_
            have he15 : Grow env s1 s5 := (he13.trans he4).trans he5
            refine Sat.bind (setAV_sat hk' c (hl1.ext he15) (hr1.ext he15) hres) fun s6 _ hi6 he6 _ => ?_
            exact Sat.pure fun s' _ he => hres.ext (he6.trans he)

/-! ## Matrix times vector -/

variable (env) in
/-- `nd` is what reading `n` yields. -/
def ReadM (s : St W) (n : Option Nat) (nd : MNode W) : Prop :=
  (n = none ∧ nd.v = -1) ∨ ∃ p, n = some p ∧ UTable.Reg env.hm s.mt p nd

theorem readM_sat' {s : St W} {n} (h : MReg env s n) :
    Sat (world env) (readM n) s (fun s' nd => ReadM env s' n nd) := by
  rcases h with rfl | ⟨p, nd, rfl, h⟩
  · exact readM_none_sat.mono fun s' a _ _ h => .inl ⟨rfl, h⟩
  · exact (readM_sat h).mono fun s' a _ he e => by subst e; exact .inr ⟨p, rfl, he.2 _ _ h⟩

theorem ReadM.ext {s s' : St W} (he : Grow env s s') {n nd} (h : ReadM env s n nd) : ReadM env s' n nd :=
  h.imp id fun ⟨p, h1, h2⟩ => ⟨p, h1, he.2 _ _ h2⟩

/-- Reading a node: it sits at the top level, or the level is skipped. -/
theorem ReadM.cases {s : St W} {k : Nat} {n nd} (h : ReadM env s n nd) (hok : MLv env s (k + 1) n) :
    (∃ p, n = some p ∧ UTable.Reg env.hm s.mt p nd ∧ nd.v = (k : Int)) ∨
    (MLv env s k n ∧ ¬ (nd.v = (k : Int) ∧ n ≠ none)) := by
  rcases h with ⟨rfl, h⟩ | ⟨p, rfl, h⟩
  · exact .inr ⟨.inl rfl, by simp⟩
  · by_cases hv : nd.v = (k : Int)
    · exact .inl ⟨p, rfl, h, hv⟩
    · refine .inr ⟨.inr ⟨p, nd, rfl, h, ?_⟩, by simp [hv]⟩
      rcases hok with hok | ⟨q, nd', e, h2, h3⟩
      · cases hok
      · cases e
        rw [reg_fun h h2] at hv ⊢
        push_cast at h3; omega

theorem mMul_child {s : St W} (hi : Inv env s) {k : Nat} {e : Edge W} {nd} (h : MLv env s (k + 1) e.n)
    (hr : ReadM env s e.n nd) (r c : Bool) : MLv env s k (mMulArg k nd e r c).n := by
  unfold mMulArg
  rcases hr.cases h with ⟨p, h1, h2, h3⟩ | ⟨h1, h2⟩
  · rw [if_pos ⟨h3, by simp [h1]⟩]
    exact hi.mchild h2 r c h3
  · rw [if_neg h2]
    split
    · exact .inl rfl
    · exact h1

theorem vMul_child {s : St W} (hi : Inv env s) {k : Nat} {e : Edge W} (h : VPtr env s (k + 1) e.n) :
    ∃ p nd, e.n = some p ∧ UTable.Reg env.hv s.vt p nd ∧ ∀ b, VLv env s k (vMulArg k nd e b) := by
  rcases h with ⟨h1, _⟩ | ⟨p, nd, h1, h2, h3⟩
  · cases h1
  · have hv : nd.v = (k : Int) := by push_cast at h3; omega
    refine ⟨p, nd, h1, h2, fun b => ?_⟩
    unfold vMulArg
    rw [if_pos ⟨hv, by simp [h1]⟩]
    exact hi.vchild h2 b hv

theorem VLv.scaled {s : St W} {k} {e : Edge W} (h : VLv env s k e) (c d : W) :
    VLv env s k ⟨WOps.mul (WOps.mul e.w c) d, e.n⟩ := (h.mulR c).mulR d

theorem VLv.snap1 {s : St W} {k} {e : Edge W} (h : VLv env s k e) {w : W}
    (hw : ¬ WOps.az w = true) (hz : Z e.w → Z w) (w' : W) : VLv env s k ⟨w', e.n⟩ := by
  rcases h with h | h
  · exact .inl h
  · exact (not_z hw (hz h.1)).elim

theorem mvMul2_sat (fk : Nat → Bool) : ∀ {k : Nat} {s : St W} {l r : Edge W},
    k ≤ NQUBITS → MLv env s k l.n → VLv env s k r →
    Sat (world env) (mvMul2 env fk k l r) s (fun s' e => VLv env s' k e) := by
  intro k
  induction k with
  | zero =>
    intro s l r hk hl hr
    refine Sat.intro fun s hi he => ?_
    replace hl := hl.ext he
    replace hr := hr.ext he
    unfold mvMul2
    split
    · exact Sat.pure fun s' _ he => zeroE_vlv s' _
    rw [hl.term hi]
    exact Sat.pure fun s' _ he => (hr.mulR _).ext he
  | succ k ih =>
    intro s l r hk hl hr
    unfold mvMul2
    split
    · exact Sat.pure fun s' _ he => zeroE_vlv s' _
    next h0 =>
    cases hln : l.n with
    | none => exact Sat.pure fun s' _ he => (hr.mulR _).ext he
    | some lp =>
    simp only
    by_cases hz : (WOps.az l.w || WOps.az r.w) = true
    · rw [if_pos hz]
      exact Sat.pure fun s' _ he => zeroE_vlv s' _
    rw [if_neg hz]
    simp only [Bool.or_eq_true, not_or] at hz
    obtain ⟨hz, hz'⟩ := hz
    have hk' : k < NQUBITS := hk
    have hp := hr.ptr hz'
    rw [← hln]
    refine Sat.bind (findPV_sat (hln ▸ hl) hp) fun s1 x hi1 he1 hx => ?_
    obtain ⟨res, c⟩ := x
    have hl1 := hl.ext he1
    have hp1 := hp.ext he1
    cases res with
    | some e =>
      have hs : VLv env s1 (k + 1) e := hx e rfl
      simp only
      split
      · exact Sat.pure fun s' _ he => zeroE_vlv s' _
      split
      · exact Sat.pure fun s' _ he => zeroE_vlv s' _
      · exact Sat.pure fun s' _ he => (hs.scaled _ _).ext he
    | none =>
      simp only
      obtain ⟨pr, nr, er, rr, or⟩ := vMul_child hi1 hp1
      refine Sat.bind (readM_sat' hl1.reg) fun s2 nl hi2 he2 hnl => ?_
      rw [er]
      refine Sat.bind (readV_sat (he2.1 _ _ rr)) fun s3 nd hi3 he3 hnd => ?_
      subst hnd
      have he13 : Grow env s1 s3 := he2.trans he3
      have or3 : ∀ b, VLv env s3 k (vMulArg k nd r b) := fun b => (or b).ext he13
      have ol := mMul_child hi3 (hl1.ext he13) (hnl.ext he3)
      have hk0 : k ≤ NQUBITS := Nat.le_of_lt hk
      have blk : ∀ (a : Bool) (t : St W), Grow env s3 t →
          ∀ (K : Edge W → P W (Edge W)) (Q : St W → Edge W → Prop),
          (∀ t' e, Inv env t' → Grow env t t' → VLv env t' k e → Sat (world env) (K e) t' Q) →
          Sat (world env) (fork (fk k) (mvMul2 env fk k (mMulArg k nl l a false) (vMulArg k nd r false))
              (mvMul2 env fk k (mMulArg k nl l a true) (vMulArg k nd r true)) >>= fun x =>
            vvAdd2 env fk k x.1 x.2 >>= K) t Q := by
        intro a t het K Q hK
        have two := Sat.fork (c := fk k)
          (Qp := fun s' e => VLv env s' k e) (Qq := fun s' e => VLv env s' k e)
          (fun a b e hi _ he h => VLv.ext h he) (fun a b e hi _ he h => VLv.ext h he)
          (ih hk0 ((ol a false).ext het) ((or3 false).ext het)) (ih hk0 ((ol a true).ext het) ((or3 true).ext het))
        refine Sat.bind two fun t1 x hi1 he1 hx => ?_
        refine Sat.bind (vvAdd2_sat fk hk0 hx.1 hx.2) fun t2 e hi2 he2 he => ?_
        exact hK t2 e hi2 (Grow.trans he1 he2) he
      refine blk false s3 (Grow.refl env s3) _ _ fun s4 e0 hi4 he4 h0 => ?_
      refine blk true s4 he4 _ _ fun s5 e1 hi5 he5 h1 => ?_
      refine Sat.bind (mkV_sat hk' (h0.ext he5) h1) fun s6 res hi6 he6 hres => ?_
      have he16 := Grow.trans he13 (Grow.trans he4 (Grow.trans he5 he6))
      rw [← er]
      refine Sat.bind (setPV_sat c (hln ▸ hl1.ext he16) (hp1.ext he16) hres) fun s7 _ hi7 he7 _ => ?_
      split
      · exact Sat.pure fun s' _ he => zeroE_vlv s' _
      next hw =>
      split
      · exact Sat.pure fun s' _ he =>
          (hres.snap1 hw (fun h => z_mul_left _ (z_mul_left _ h)) _).ext (Grow.trans he7 he)
      · exact Sat.pure fun s' _ he => (hres.scaled _ _).ext (Grow.trans he7 he)

/-! ## The API entry points -/

theorem readV_root {s : St W} {k : Nat} {e : Edge W} (h : VLv env s k e) :
    Sat (world env) (readV e.n) s (fun s' nd => (e.n = none ∧ nd.v = -1) ∨ (VPtr env s k e.n ∧ nd.v + 1 = (k : Int))) := by
  have none : e.n = none → Sat (world env) (readV e.n) s
      (fun s' nd => (e.n = none ∧ nd.v = -1) ∨ (VPtr env s k e.n ∧ nd.v + 1 = (k : Int))) := fun hn => by
    rw [hn]; exact readV_none_sat.mono fun s' nd _ _ h => .inl ⟨rfl, h⟩
  rcases h with (⟨_, h⟩ | ⟨p, nd, h1, h2, h3⟩) | h
  · exact none h
  · rw [h1]
    exact (readV_sat h2).mono fun s' nd' _ _ e => by subst e; exact .inr ⟨.inr ⟨p, nd', rfl, h2, h3⟩, h3⟩
  · exact none h.2

theorem root_level {s : St W} {k : Nat} {e : Edge W} {nd : VNode W} (h : VLv env s k e) (hw : ¬ WOps.az e.w = true)
    (hnd : (e.n = none ∧ nd.v = -1) ∨ (VPtr env s k e.n ∧ nd.v + 1 = (k : Int))) : (nd.v + 1).toNat = k := by
  rcases hnd with ⟨h1, h2⟩ | ⟨_, h⟩
  · rcases h.ptr hw with h | ⟨p, _, h, _⟩
    · omega
    · rw [h1] at h; cases h
  · omega

theorem vvAdd_sat (fk : Nat → Bool) {k : Nat} {s : St W} {l r : Edge W} (hl : VLv env s k l) (hr : VLv env s k r) :
    Sat (world env) (vvAdd env fk l r) s (fun s' e => VLv env s' k e) := by
  unfold vvAdd
  by_cases hn : l.n = none ∧ r.n = none
  · rw [if_pos hn]
    refine Sat.pure fun s' _ he => VLv.ext ?_ he
    rcases hl with (h | ⟨p, nd, h, _⟩) | h
    · exact .inl (.inl ⟨h.1, rfl⟩)
    · rw [hn.1] at h; cases h
    · rcases hr with (h' | ⟨p, nd, h', _⟩) | h'
      · exact .inl (.inl ⟨h'.1, rfl⟩)
      · rw [hn.2] at h'; cases h'
      · right; exact ⟨z_add h.1 h'.1, rfl⟩
  rw [if_neg hn]
  refine Sat.bind (readV_root hr) fun s1 nd hi1 he1 hnd => ?_
  have hl1 := hl.ext he1
  have hr1 := hr.ext he1
  by_cases hzl : WOps.az l.w = true
  · generalize (nd.v + 1).toNat = lv
    have : vvAdd2 env fk lv l r = if WOps.az r.w then pure zeroE else pure r := by
      cases lv <;> simp [vvAdd2, hzl]
    rw [this]
    split
    · exact Sat.pure fun s' _ _ => zeroE_vlv s' _
    · exact Sat.pure fun s' _ he => hr1.ext he
  by_cases hzr : WOps.az r.w = true
  · generalize (nd.v + 1).toNat = lv
    have : vvAdd2 env fk lv l r = pure l := by
      cases lv <;> simp [vvAdd2, hzr, hzl]
    rw [this]
    exact Sat.pure fun s' _ he => hl1.ext he
  · rw [root_level hr hzr hnd]
    exact vvAdd2_sat fk (hl1.le hi1 hzl) hl1 hr1

theorem mvMul_sat (mt : Bool) {k : Nat} {s : St W} {l r : Edge W} (hl : MLv env s k l.n) (hr : VLv env s k r) :
    Sat (world env) (mvMul env mt l r) s (fun s' e => VLv env s' k e) := by
  unfold mvMul
  by_cases hn : l.n = none ∧ r.n = none
  · rw [if_pos hn]
    refine Sat.pure fun s' _ he => VLv.ext ?_ he
    have := hr.mulL l.w
    rwa [hn.2] at this
  rw [if_neg hn]
  refine Sat.bind (readV_root hr) fun s1 nd hi1 he1 hnd => ?_
  generalize (fun k : Nat => mt && decide ((k : Int) > nd.v - 6)) = fk
  have hl1 := hl.ext he1
  have hr1 := hr.ext he1
  by_cases hrw : WOps.az r.w = true
  · generalize (nd.v + 1).toNat = lv
    have hfin : mvMul2 env fk lv l r = pure zeroE ∨ (l.n = none ∧ mvMul2 env fk lv l r = pure ⟨WOps.mul r.w l.w, r.n⟩) := by
      cases hl0 : eeq l zeroE
      · cases hln : l.n with
        | none => right; refine ⟨rfl, ?_⟩; unfold mvMul2; simp [hl0, hln]
        | some p => left; unfold mvMul2; simp [hl0, hln, hrw]
      · left; unfold mvMul2; simp [hl0]
    rcases hfin with h | ⟨h, h'⟩
    · rw [h]; exact Sat.pure fun s' _ _ => zeroE_vlv s' _
    · rw [h']
      exact Sat.pure fun s' _ he => (hr1.mulR _).ext he
  · rw [root_level hr hrw hnd]
    exact mvMul2_sat fk (hr1.le hi1 hrw) hl1 hr1

end Safe
end QDD
