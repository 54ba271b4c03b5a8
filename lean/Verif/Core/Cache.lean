import Verif.Core.Make
/-!
# Operation caches only ever return right answers
-/

set_option linter.unusedSectionVars false
set_option linter.unusedVariables false
set_option linter.unusedSimpArgs false

namespace QDD
open ExactW Prog
variable {W : Type} [Field W] [WOps W] [ExactW W] {env : Env W}

theorem VPtrOk.level {s : St W} {k k' n} (h : VPtrOk env s k n) (h' : VPtrOk env s k' n) : k = k' := by
  rcases h with ⟨h1, h2⟩ | ⟨p, nd, rfl, h2, h3⟩
  · rcases h' with ⟨h3, _⟩ | ⟨p, nd, h3, _⟩
    · omega
    · rw [h2] at h3; cases h3
  · rcases h' with ⟨_, h4⟩ | ⟨p, nd', h4, h5, h6⟩
    · cases h4
    · cases h4
      have := Reg.inj h2 h5
      subst this
      omega

theorem VOk.evar {s : St W} (hi : Inv env s) {k e} (h : VOk env s k e) :
    ∃ v, evar s.vt.mem e.n = .ok v ∧ -1 ≤ v := by
  have none : e.n = none → ∃ v, QDD.evar s.vt.mem e.n = .ok v ∧ -1 ≤ v := fun h => by
    rw [h]; exact ⟨-1, rfl, le_refl _⟩
  rcases h with (h | ⟨p, nd, h1, h2, h3⟩) | h
  · exact none h.2
  · rw [h1]
    obtain ⟨k, hk, _⟩ := hi.vlevel h2
    exact ⟨nd.v, by simp [QDD.evar, h2.1], by omega⟩
  · exact none h.2

theorem RegM.evar {s : St W} (hi : Inv env s) {n} (h : RegM env s n) :
    ∃ v : Int, evar s.mt.mem n = .ok v ∧ -1 ≤ v ∧ v < NQUBITS ∧ (n ≠ none → 0 ≤ v) ∧
      ∀ k : Nat, MOk env s k n ↔ v < k := by
  rcases h with rfl | ⟨p, nd, rfl, h2⟩
  · exact ⟨-1, rfl, le_refl _, by decide, by simp, fun k => ⟨fun _ => by omega, fun _ => .inl rfl⟩⟩
  · obtain ⟨k, hk, hk'⟩ := hi.mlevel h2
    refine ⟨nd.v, by simp [QDD.evar, h2.1], by omega, by omega, fun _ => by omega, fun m => ⟨fun h => ?_, fun h =>
      .inr ⟨p, nd, rfl, h2, h⟩⟩⟩
    rcases h with h | ⟨q, nd', e, h3, h4⟩
    · cases h
    · cases e
      rw [Reg.inj h2 h3]; exact h4

theorem VPtrOk.evar {s : St W} {k : Nat} {n} (h : VPtrOk env s k n) : evar s.vt.mem n = .ok ((k : Int) - 1) := by
  rcases h with ⟨rfl, rfl⟩ | ⟨p, nd, rfl, h2, h3⟩
  · rfl
  · simp only [QDD.evar, h2.1, VNode.tvar]; congr 1; omega

/-- Changing only cache contents. -/
theorem Inv.caches {s s' : St W} (hi : Inv env s) (hv : s'.vt = s.vt) (hm : s'.mt = s.mt)
    (av : ∀ tid lv key e, s'.av tid lv key = some e → AVEnt env s e)
    (am : ∀ tid lv key e, s'.am tid lv key = some e → AMEnt env s e)
    (cv : ∀ tid lv key b, s'.cv tid lv key = some b → ∀ e ∈ b, e.valid = true →
      ∃ x, e.res = some x ∧ PVEnt env s e.lhs e.rhs x)
    (cm : ∀ tid lv key b, s'.cm tid lv key = some b → ∀ e ∈ b, e.valid = true →
      ∃ x, e.res = some x ∧ PMEnt env s e.lhs e.rhs x) : Inv env s' ∧ SExt env s s' := by
  have he : SExt env s s' := ⟨by rw [hv]; exact UTable.Ext.refl _, by rw [hm]; exact UTable.Ext.refl _⟩
  refine ⟨⟨hv ▸ hi.vt, hm ▸ hi.mt, hv ▸ hi.vu, hm ▸ hi.mu, ?_, ?_, ?_, ?_, ?_, ?_⟩, he⟩
  · intro p nd h; exact (hi.vn p nd (hv ▸ h)).ext he
  · intro p nd h; exact (hi.mn p nd (hm ▸ h)).ext he
  · intro tid lv key e h; exact (av tid lv key e h).ext hi he
  · intro tid lv key e h; exact (am tid lv key e h).ext hi he
  · intro tid lv key b h e h1 h2
    obtain ⟨x, hx, hp⟩ := cv tid lv key b h e h1 h2
    exact ⟨x, hx, hp.ext hi he⟩
  · intro tid lv key b h e h1 h2
    obtain ⟨x, hx, hp⟩ := cm tid lv key b h e h1 h2
    exact ⟨x, hx, hp.ext hi he⟩

theorem upd3_some {α : Type} {c : Nat → Int → Nat → Option α} {t : Nat} {lv : Int} {key : Nat} {x y : α} {t' : Nat}
    {lv' : Int} {key' : Nat} (h : upd c t (upd (c t) lv (upd (c t lv) key (some x))) t' lv' key' = some y) :
    y = x ∨ c t' lv' key' = some y := by
  unfold upd at h
  by_cases e : t' = t
  · subst e
    simp only [if_true] at h
    by_cases e : lv' = lv
    · subst e
      simp only [if_true] at h
      split at h
      · left; exact (Option.some.inj h).symm
      · exact .inr h
    · simp only [if_neg e] at h; exact .inr h
  · simp only [if_neg e] at h; exact .inr h

variable (env) in
/-- A right answer for a sum of vectors. -/
def VSum (k : Nat) (l r : Edge W) (s : St W) (e : Edge W) : Prop :=
  VOk env s k e ∧ ∀ i, vden s.vt.mem k e i = vden s.vt.mem k l i + vden s.vt.mem k r i

theorem findAV_sat {s : St W} {k : Nat} {l r : Edge W} (hk : k < NQUBITS) (hl : VPtrOk env s (k + 1) l.n)
    (hr : VPtrOk env s (k + 1) r.n) :
    Sat (world env) (findAV env l r) s (fun s' x => ∀ e, x.1 = some e → VSum env (k + 1) l r s' e) := by
  refine Sat.atom fun s1 tid hi he => ?_
  have hl1 := hl.ext he
  have hr1 := hr.ext he
  have h1 : (((k + 1 : Nat) : Int) - 1) = k := by push_cast; omega
  have hord : acOrder s1.vt.mem l r = .ok (l, r, (k : Int)) := by
    unfold acOrder; rw [hl1.evar, hr1.evar]; simp [h1]
  have hrng : ¬ ((k : Int) < 0 ∨ (NQUBITS : Int) ≤ k) := by omega
  have key : ∃ o, (s1.av tid).find s1.vt.mem env.hav l r = .ok o ∧
      ∀ e, o = some e → VSum env (k + 1) l r s1 e := by
    unfold ACache.find
    simp only [hord, if_neg hrng]
    cases hc : s1.av tid (k : Int) (env.hav l r % NBUCKETS) with
    | none => exact ⟨none, rfl, fun e h => by cases h⟩
    | some e =>
      simp only
      by_cases hm : (eeq e.lhs l && eeq e.rhs r) = true
      · rw [if_pos hm]
        simp only [Bool.and_eq_true, eeq_iff] at hm
        obtain ⟨rfl, rfl⟩ := hm
        obtain ⟨k', a, b, c, d⟩ := hi.av _ _ _ _ hc
        have := a.level hl1
        subst this
        obtain ⟨v, hv, hv'⟩ := c.evar hi
        have : v ≠ -2 := by omega
        rw [hv]
        simp only [if_pos this]
        exact ⟨_, rfl, fun x hx => by cases hx; exact ⟨c, d⟩⟩
      · rw [if_neg hm]; exact ⟨none, rfl, fun e h => by cases h⟩
  obtain ⟨o, ho, hQ⟩ := key
  refine ⟨(o, tid), s1, by simp only [ho], hi, SExt.refl env s1, fun s' hi' he' e hx => ?_⟩
  obtain ⟨a, b⟩ := hQ e hx
  refine ⟨a.ext he', fun i => ?_⟩
  rw [vden_ext hi he' a, vden_ext hi he' (.inl hl1), vden_ext hi he' (.inl hr1), b]

theorem setAV_sat {s : St W} {k : Nat} {l r res : Edge W} (hk : k < NQUBITS) (c : Nat)
    (hl : VPtrOk env s (k + 1) l.n) (hr : VPtrOk env s (k + 1) r.n) (hi0 : Inv env s)
    (hres : VSum env (k + 1) l r s res) :
    Sat (world env) (setAV env c l r res) s (fun _ _ => True) := by
  refine Sat.atom fun s1 tid hi he => ?_
  have hl1 := hl.ext he
  have hr1 := hr.ext he
  have h1 : (((k + 1 : Nat) : Int) - 1) = k := by push_cast; omega
  have hord : acOrder s1.vt.mem l r = .ok (l, r, (k : Int)) := by
    unfold acOrder; rw [hl1.evar, hr1.evar]; simp [h1]
  have hrng : ¬ ((k : Int) < 0 ∨ (NQUBITS : Int) ≤ k) := by omega
  have hset : (s1.av c).set s1.vt.mem env.hav l r res = .ok (upd (s1.av c) k (upd (s1.av c k)
      (env.hav l r % NBUCKETS) (some ⟨l, r, res⟩))) := by
    unfold ACache.set; simp only [hord, if_neg hrng]
  have hent : AVEnt env s1 ⟨l, r, res⟩ :=
    AVEnt.ext hi0 he ⟨k + 1, hl, hr, hres.1, hres.2⟩
  obtain ⟨hi', he'⟩ := hi.caches (s' := { s1 with av := (upd s1.av c (upd (s1.av c) k (upd (s1.av c k) (env.hav l r % NBUCKETS) (some ⟨l, r, res⟩)))) }) rfl rfl
    (fun tid lv key e h => by
      rcases upd3_some h with rfl | h
      · exact hent
      · exact hi.av _ _ _ _ h) hi.am hi.cv hi.cm
  exact ⟨(), _, by simp only [hset], hi', he', fun _ _ _ => trivial⟩

variable (env) in
/-- A right answer for a sum of matrices, at every level that covers both operands. -/
def MSum (l r : Edge W) (s : St W) (e : Edge W) : Prop :=
  ∀ k, MOk env s k l.n → MOk env s k r.n → MOk env s k e.n ∧
    ∀ i j, mden s.mt.mem k e i j = mden s.mt.mem k l i j + mden s.mt.mem k r i j

theorem MSum.ext {s s' : St W} (hi : Inv env s) (he : SExt env s s') {l r e : Edge W} (hl : RegM env s l.n)
    (hr : RegM env s r.n) (h : MSum env l r s e) : MSum env l r s' e :=
  (AMEnt.ext hi he (e := ⟨l, r, e⟩) ⟨hl, hr, h⟩).2.2

theorem MSum.symm {s : St W} {l r e : Edge W} (h : MSum env l r s e) : MSum env r l s e := fun k h1 h2 =>
  ⟨(h k h2 h1).1, fun i j => by rw [(h k h2 h1).2, add_comm]⟩

theorem acOrderM {s : St W} (hi : Inv env s) {l r : Edge W} (hl : RegM env s l.n)
    (hr : RegM env s r.n) (hne : l.n ≠ r.n) :
    ∃ a b v, acOrder s.mt.mem l r = .ok (a, b, v) ∧ ((a = l ∧ b = r) ∨ (a = r ∧ b = l)) ∧
      ¬ (v < 0 ∨ (NQUBITS : Int) ≤ v) := by
  obtain ⟨lv, h1, h2, h3, h4, _⟩ := hl.evar hi
  obtain ⟨rv, g1, g2, g3, g4, _⟩ := hr.evar hi
  unfold acOrder
  rw [h1, g1]
  simp only
  have hz : 0 ≤ lv ∨ 0 ≤ rv := by
    by_cases hn : l.n = none
    · right; exact g4 (fun h => hne (hn.trans h.symm))
    · exact .inl (h4 hn)
  split
  · exact ⟨r, l, rv, rfl, .inr ⟨rfl, rfl⟩, by omega⟩
  · exact ⟨l, r, lv, rfl, .inl ⟨rfl, rfl⟩, by omega⟩

theorem AMEnt.res_reg {s : St W} (hi : Inv env s) {e : AEnt W} (h : AMEnt env s e) : RegM env s e.res.n := by
  obtain ⟨a, b, c⟩ := h
  obtain ⟨_, _, _, h3, _, h5⟩ := a.evar hi
  obtain ⟨_, _, _, g3, _, g5⟩ := b.evar hi
  exact (c NQUBITS ((h5 _).2 h3) ((g5 _).2 g3)).1.regM

theorem findAM_sat {s : St W} {l r : Edge W} (hl : RegM env s l.n) (hr : RegM env s r.n) (hne : l.n ≠ r.n) :
    Sat (world env) (findAM env l r) s (fun s' x => ∀ e, x.1 = some e → MSum env l r s' e) := by
  refine Sat.atom fun s1 tid hi he => ?_
  have hl1 := hl.ext he
  have hr1 := hr.ext he
  obtain ⟨a, b, v, hord, hab, hrng⟩ := acOrderM hi hl1 hr1 hne
  have key : ∃ o, (s1.am tid).find s1.mt.mem env.ham l r = .ok o ∧ ∀ e, o = some e → MSum env l r s1 e := by
    unfold ACache.find
    simp only [hord, if_neg hrng]
    cases hc : s1.am tid v (env.ham a b % NBUCKETS) with
    | none => exact ⟨none, rfl, fun e h => by cases h⟩
    | some e =>
      simp only
      by_cases hm : (eeq e.lhs a && eeq e.rhs b) = true
      · rw [if_pos hm]
        simp only [Bool.and_eq_true, eeq_iff] at hm
        obtain ⟨h1, h2⟩ := hm
        have hent := hi.am _ _ _ _ hc
        obtain ⟨v, hv, hv', _⟩ := (hent.res_reg hi).evar hi
        have : v ≠ -2 := by omega
        rw [hv]
        simp only [if_pos this]
        refine ⟨_, rfl, fun x hx => ?_⟩
        cases hx
        have : MSum env e.lhs e.rhs s1 e.res := hent.2.2
        rcases hab with ⟨rfl, rfl⟩ | ⟨rfl, rfl⟩
        · rwa [h1, h2] at this
        · rw [h1, h2] at this; exact this.symm
      · rw [if_neg hm]; exact ⟨none, rfl, fun e h => by cases h⟩
  obtain ⟨o, ho, hQ⟩ := key
  exact ⟨(o, tid), s1, by simp only [ho], hi, SExt.refl env s1, fun s' hi' he' e hx =>
    (hQ e hx).ext hi he' hl1 hr1⟩

theorem setAM_sat {s : St W} {l r res : Edge W} (c : Nat)
    (hl : RegM env s l.n) (hr : RegM env s r.n) (hne : l.n ≠ r.n) (hi0 : Inv env s)
    (hres : MSum env l r s res) :
    Sat (world env) (setAM env c l r res) s (fun _ _ => True) := by
  refine Sat.atom fun s1 tid hi he => ?_
  have hl1 := hl.ext he
  have hr1 := hr.ext he
  obtain ⟨a, b, v, hord, hab, hrng⟩ := acOrderM hi hl1 hr1 hne
  have hset : (s1.am c).set s1.mt.mem env.ham l r res = .ok (upd (s1.am c) v (upd (s1.am c v)
      (env.ham a b % NBUCKETS) (some ⟨a, b, res⟩))) := by
    unfold ACache.set; simp only [hord, if_neg hrng]
  have hres1 := hres.ext hi0 he hl hr
  have hent : AMEnt env s1 ⟨a, b, res⟩ := by
    rcases hab with ⟨rfl, rfl⟩ | ⟨rfl, rfl⟩
    · exact ⟨hl1, hr1, hres1⟩
    · exact ⟨hr1, hl1, hres1.symm⟩
  obtain ⟨hi', he'⟩ := hi.caches (s' := { s1 with am := (upd s1.am c (upd (s1.am c) v (upd (s1.am c v) (env.ham a b % NBUCKETS) (some ⟨a, b, res⟩)))) }) rfl rfl hi.av
    (fun tid lv key e h => by
      rcases upd3_some h with rfl | h
      · exact hent
      · exact hi.am _ _ _ _ h) hi.cv hi.cm
  exact ⟨(), _, by simp only [hset], hi', he', fun _ _ _ => trivial⟩

/-! ### Product caches -/

/-- A bucket whose valid entries satisfy `R`. -/
def BOk (R : Option Nat → Option Nat → Edge W → Prop) (b : List (PEnt W)) : Prop :=
  ∀ e ∈ b, e.valid = true → ∃ x, e.res = some x ∧ R e.lhs e.rhs x

theorem BOk.cons {R} {e : PEnt W} {b : List (PEnt W)} (he : e.valid = true → ∃ x, e.res = some x ∧ R e.lhs e.rhs x)
    (hb : BOk R b) : BOk R (e :: b) := by
  intro x hx
  rcases List.mem_cons.1 hx with rfl | hx
  · exact he
  · exact hb x hx

theorem BOk.tail {R} {e : PEnt W} {b : List (PEnt W)} (h : BOk R (e :: b)) : BOk R b :=
  fun x hx => h x (List.mem_cons_of_mem _ hx)

theorem BOk.fresh {R} (junk : Nat → Bool) : BOk R (freshBucket W junk) := by
  intro e he hv
  unfold freshBucket at he
  obtain ⟨i, _, rfl⟩ := List.mem_map.1 he
  cases hv

theorem bucketFind_ok {N : Type} [TNode N] {mem : Nat → Option N} {R} {l r : Option Nat}
    (hev : ∀ x, R l r x → ∃ v, evar mem x.n = .ok v ∧ -1 ≤ v) : ∀ {b : List (PEnt W)}, BOk R b →
    ∃ o b', bucketFind mem l r b = .ok (o, b') ∧ BOk R b' ∧ ∀ x, o = some x → R l r x
  | [], h => ⟨none, [], rfl, h, fun x hx => by cases hx⟩
  | e :: es, h => by
    unfold bucketFind
    by_cases hm : (e.valid && e.lhs == l && e.rhs == r) = true
    · rw [if_pos hm]
      simp only [Bool.and_eq_true, beq_iff_eq] at hm
      obtain ⟨⟨hv, hl⟩, hr⟩ := hm
      obtain ⟨x, hx, hR⟩ := h e List.mem_cons_self hv
      rw [hl, hr] at hR
      obtain ⟨v, hv', hv2⟩ := hev x hR
      have : v ≠ -2 := by omega
      simp only [hx, hv', if_pos this]
      refine ⟨_, _, rfl, BOk.cons (fun _ => ⟨x, rfl, ?_⟩) h.tail, fun y hy => by cases hy; exact hR⟩
      simpa only [hl, hr] using hR
    · rw [if_neg hm]
      obtain ⟨o, b', h1, h2, h3⟩ := bucketFind_ok hev h.tail
      simp only [h1]
      exact ⟨o, e :: b', rfl, BOk.cons (h e List.mem_cons_self) h2, h3⟩

theorem putNull_ok {R} {l r : Option Nat} {x : Edge W} (hx : R l r x) : ∀ {b b' : List (PEnt W)}, BOk R b →
    putNull l r x b = some b' → BOk R b'
  | [], _, _, h => by cases h
  | e :: es, b', hb, h => by
    unfold putNull at h
    split at h
    · cases h
      exact BOk.cons (fun _ => ⟨x, rfl, hx⟩) hb.tail
    · cases hp : putNull l r x es with
      | none => rw [hp] at h; cases h
      | some b'' =>
        rw [hp] at h; cases h
        exact BOk.cons (hb e List.mem_cons_self) (putNull_ok hx hb.tail hp)

theorem bucketSet_ok {R} {l r : Option Nat} {x : Edge W} (hx : R l r x) {b : List (PEnt W)} (hb : BOk R b) :
    BOk R (bucketSet l r x b) := by
  unfold bucketSet
  split
  · next h => exact putNull_ok hx hb h
  · intro e he hv
    rcases List.mem_or_eq_of_mem_set he with h | rfl
    · exact hb e h hv
    · exact ⟨x, rfl, hx⟩

variable (env) in
/-- A right answer for a matrix-vector product of unweighted nodes. -/
def VProd (k : Nat) (l r : Option Nat) (s : St W) (e : Edge W) : Prop :=
  VOk env s k e ∧ ∀ i, vden s.vt.mem k e i = bsum k (fun j => mptr s.mt.mem k l i j * vptr s.vt.mem k r j)

theorem VProd.ext {s s' : St W} (hi : Inv env s) (he : SExt env s s') {k l r e} (hl : MOk env s k l)
    (hr : VPtrOk env s k r) (h : VProd env k l r s e) : VProd env k l r s' e := by
  refine ⟨h.1.ext he, fun i => ?_⟩
  rw [vden_ext hi he h.1, h.2]
  exact bsum_congr fun j _ => by rw [mptr_ext hi he hl, vptr_ext hi he hr]

theorem PVEnt.at {s : St W} {k l r x} (hr : VPtrOk env s k r) (h : PVEnt env s l r x) : VProd env k l r s x := by
  obtain ⟨k', _, h2, h3, h4⟩ := h
  have := h2.level hr
  subst this
  exact ⟨h3, h4⟩

theorem mlv {s : St W} (hi : Inv env s) {k : Nat} {l : Nat} (hl : MOk env s k (some l)) :
    ∃ v : Int, evar s.mt.mem (some l) = .ok v ∧ ¬ (v < 0 ∨ (NQUBITS : Int) ≤ v) := by
  obtain ⟨v, h1, h2, h3, h4, _⟩ := hl.regM.evar hi
  exact ⟨v, h1, by have := h4 (by simp); omega⟩

theorem findPV_sat {s : St W} {k : Nat} {l : Nat} {r : Option Nat} (hl : MOk env s k (some l))
    (hr : VPtrOk env s k r) :
    Sat (world env) (findPV env l r) s (fun s' x => ∀ e, x.1 = some e → VProd env k (some l) r s' e) := by
  refine Sat.atom fun s1 tid hi he => ?_
  have hl1 := hl.ext he
  have hr1 := hr.ext he
  obtain ⟨v, hv, hrng⟩ := mlv hi hl1
  have key : ∃ o b, (s1.cv tid).find s1.mt.mem s1.vt.mem env.mur env.junkMV l r = .ok (o,
      upd (s1.cv tid) v (upd (s1.cv tid v) (env.mur l % NBUCKETS) (some b))) ∧
      BOk (PVEnt env s1) b ∧ ∀ e, o = some e → PVEnt env s1 (some l) r e := by
    unfold PCache.find
    simp only [hv, if_neg hrng]
    cases hc : s1.cv tid v (env.mur l % NBUCKETS) with
    | none => exact ⟨none, _, rfl, BOk.fresh _, fun e h => by cases h⟩
    | some b =>
      obtain ⟨o, b', h1, h2, h3⟩ := bucketFind_ok (mem := s1.vt.mem) (R := PVEnt env s1) (l := some l) (r := r)
        (fun x hx => (hx.at hr1).1.evar hi) (hi.cv _ _ _ _ hc)
      simp only [h1]
      exact ⟨o, b', rfl, h2, h3⟩
  obtain ⟨o, b, ho, hb, hQ⟩ := key
  obtain ⟨hi', he'⟩ := hi.caches (s' := { s1 with cv := (upd s1.cv tid (upd (s1.cv tid) v (upd (s1.cv tid v) (env.mur l % NBUCKETS) (some b)))) }) rfl rfl hi.av hi.am
    (fun tid lv key e h => by
      rcases upd3_some h with rfl | h
      · exact hb
      · exact hi.cv _ _ _ _ h) hi.cm
  exact ⟨(o, tid), _, by simp only [ho], hi', he', fun s' _ h' e hx =>
    ((hQ e hx).at hr1).ext hi (he'.trans env h') hl1 hr1⟩

theorem setPV_sat {s : St W} {k : Nat} {l : Nat} {r : Option Nat} {res : Edge W} (c : Nat) (hi0 : Inv env s)
    (hl : MOk env s k (some l)) (hr : VPtrOk env s k r) (hres : VProd env k (some l) r s res) :
    Sat (world env) (setPV env c l r res) s (fun _ _ => True) := by
  refine Sat.atom fun s1 tid hi he => ?_
  have hl1 := hl.ext he
  have hr1 := hr.ext he
  have hres1 := hres.ext hi0 he hl hr
  obtain ⟨v, hv, hrng⟩ := mlv hi hl1
  have key : ∃ b, (s1.cv c).set s1.mt.mem env.mur env.junkMV l r res = .ok (
      upd (s1.cv c) v (upd (s1.cv c v) (env.mur l % NBUCKETS) (some b))) ∧ BOk (PVEnt env s1) b := by
    unfold PCache.set
    simp only [hv, if_neg hrng]
    refine ⟨_, rfl, bucketSet_ok ⟨k, hl1, hr1, hres1.1, hres1.2⟩ ?_⟩
    cases hc : s1.cv c v (env.mur l % NBUCKETS) with
    | none => exact BOk.fresh _
    | some b => exact hi.cv _ _ _ _ hc
  obtain ⟨b, ho, hb⟩ := key
  obtain ⟨hi', he'⟩ := hi.caches (s' := { s1 with cv := (upd s1.cv c (upd (s1.cv c) v (upd (s1.cv c v) (env.mur l % NBUCKETS) (some b)))) }) rfl rfl hi.av hi.am
    (fun tid lv key e h => by
      rcases upd3_some h with rfl | h
      · exact hb
      · exact hi.cv _ _ _ _ h) hi.cm
  exact ⟨(), _, by simp only [ho], hi', he', fun _ _ _ => trivial⟩

variable (env) in
/-- A right answer for a product of matrix nodes, at every level that covers both. -/
def MProd (l r : Option Nat) (s : St W) (e : Edge W) : Prop :=
  ∀ k, MOk env s k l → MOk env s k r → MOk env s k e.n ∧
    ∀ i j, mden s.mt.mem k e i j = bsum k (fun m => mptr s.mt.mem k l i m * mptr s.mt.mem k r m j)

theorem MProd.ext {s s' : St W} (hi : Inv env s) (he : SExt env s s') {l r : Option Nat} {e : Edge W}
    (hl : RegM env s l) (hr : RegM env s r) (h : MProd env l r s e) : MProd env l r s' e :=
  (PMEnt.ext hi he (x := e) ⟨hl, hr, h⟩).2.2

theorem PMEnt.res_reg {s : St W} (hi : Inv env s) {l r e} (h : PMEnt env s l r e) : RegM env s e.n := by
  obtain ⟨a, b, c⟩ := h
  obtain ⟨_, _, _, h3, _, h5⟩ := a.evar hi
  obtain ⟨_, _, _, g3, _, g5⟩ := b.evar hi
  exact (c NQUBITS ((h5 _).2 h3) ((g5 _).2 g3)).1.regM

theorem mlv' {s : St W} (hi : Inv env s) {l : Nat} (hl : RegM env s (some l)) :
    ∃ v : Int, evar s.mt.mem (some l) = .ok v ∧ ¬ (v < 0 ∨ (NQUBITS : Int) ≤ v) := by
  obtain ⟨v, h1, h2, h3, h4, _⟩ := hl.evar hi
  exact ⟨v, h1, by have := h4 (by simp); omega⟩

theorem findPM_sat {s : St W} {l : Nat} {r : Option Nat} (hl : RegM env s (some l)) (hr : RegM env s r) :
    Sat (world env) (findPM env l r) s (fun s' x => ∀ e, x.1 = some e → MProd env (some l) r s' e) := by
  refine Sat.atom fun s1 tid hi he => ?_
  have hl1 := hl.ext he
  have hr1 := hr.ext he
  obtain ⟨v, hv, hrng⟩ := mlv' hi hl1
  have key : ∃ o b, (s1.cm tid).find s1.mt.mem s1.mt.mem env.mur env.junkMM l r = .ok (o,
      upd (s1.cm tid) v (upd (s1.cm tid v) (env.mur l % NBUCKETS) (some b))) ∧
      BOk (PMEnt env s1) b ∧ ∀ e, o = some e → PMEnt env s1 (some l) r e := by
    unfold PCache.find
    simp only [hv, if_neg hrng]
    cases hc : s1.cm tid v (env.mur l % NBUCKETS) with
    | none => exact ⟨none, _, rfl, BOk.fresh _, fun e h => by cases h⟩
    | some b =>
      obtain ⟨o, b', h1, h2, h3⟩ := bucketFind_ok (mem := s1.mt.mem) (R := PMEnt env s1) (l := some l) (r := r)
        (fun x hx => by
          obtain ⟨v, h1, h2, _⟩ := (hx.res_reg hi).evar hi
          exact ⟨v, h1, h2⟩) (hi.cm _ _ _ _ hc)
      simp only [h1]
      exact ⟨o, b', rfl, h2, h3⟩
  obtain ⟨o, b, ho, hb, hQ⟩ := key
  obtain ⟨hi', he'⟩ := hi.caches (s' := { s1 with cm := (upd s1.cm tid (upd (s1.cm tid) v (upd (s1.cm tid v) (env.mur l % NBUCKETS) (some b)))) }) rfl rfl hi.av hi.am hi.cv
    (fun tid lv key e h => by
      rcases upd3_some h with rfl | h
      · exact hb
      · exact hi.cm _ _ _ _ h)
  refine ⟨(o, tid), _, by simp only [ho], hi', he', fun s' _ h' e hx => ?_⟩
  exact MProd.ext hi (he'.trans env h') hl1 hr1 (hQ e hx).2.2

theorem setPM_sat {s : St W} {l : Nat} {r : Option Nat} {res : Edge W} (c : Nat) (hi0 : Inv env s)
    (hl : RegM env s (some l)) (hr : RegM env s r) (hres : MProd env (some l) r s res) :
    Sat (world env) (setPM env c l r res) s (fun _ _ => True) := by
  refine Sat.atom fun s1 tid hi he => ?_
  have hl1 := hl.ext he
  have hr1 := hr.ext he
  have hres1 := hres.ext hi0 he hl hr
  obtain ⟨v, hv, hrng⟩ := mlv' hi hl1
  have key : ∃ b, (s1.cm c).set s1.mt.mem env.mur env.junkMM l r res = .ok (
      upd (s1.cm c) v (upd (s1.cm c v) (env.mur l % NBUCKETS) (some b))) ∧ BOk (PMEnt env s1) b := by
    unfold PCache.set
    simp only [hv, if_neg hrng]
    refine ⟨_, rfl, bucketSet_ok ⟨hl1, hr1, hres1⟩ ?_⟩
    cases hc : s1.cm c v (env.mur l % NBUCKETS) with
    | none => exact BOk.fresh _
    | some b => exact hi.cm _ _ _ _ hc
  obtain ⟨b, ho, hb⟩ := key
  obtain ⟨hi', he'⟩ := hi.caches (s' := { s1 with cm := (upd s1.cm c (upd (s1.cm c) v (upd (s1.cm c v) (env.mur l % NBUCKETS) (some b)))) }) rfl rfl hi.av hi.am hi.cv
    (fun tid lv key e h => by
      rcases upd3_some h with rfl | h
      · exact hb
      · exact hi.cm _ _ _ _ h)
  exact ⟨(), _, by simp only [ho], hi', he', fun _ _ _ => trivial⟩

/-! ### Reading nodes, building edges -/

theorem readV_sat {s : St W} {p nd} (h : UTable.Reg env.hv s.vt p nd) :
    Sat (world env) (readV (some p)) s (fun _ x => x = nd) :=
  Sat.atom fun s1 tid hi he => ⟨nd, s1, by simp [(he.1 _ _ h).1], hi, SExt.refl env s1, fun _ _ _ => rfl⟩

theorem readM_sat {s : St W} {p nd} (h : UTable.Reg env.hm s.mt p nd) :
    Sat (world env) (readM (some p)) s (fun _ x => x = nd) :=
  Sat.atom fun s1 tid hi he => ⟨nd, s1, by simp [(he.2 _ _ h).1], hi, SExt.refl env s1, fun _ _ _ => rfl⟩

theorem readV_none_sat {s : St W} : Sat (world env) (readV none) s (fun _ x => x.v = -1) :=
  Sat.atom fun s1 tid hi he => ⟨_, s1, rfl, hi, SExt.refl env s1, fun _ _ _ => rfl⟩

theorem readM_none_sat {s : St W} : Sat (world env) (readM none) s (fun _ x => x.v = -1) :=
  Sat.atom fun s1 tid hi he => ⟨_, s1, rfl, hi, SExt.refl env s1, fun _ _ _ => rfl⟩

theorem mkV_sat0 {s : St W} (hi0 : Inv env s) {k : Nat} (hk : k < NQUBITS) {c0 c1 : Edge W} {f g : Nat → W}
    (h0 : VRep0 env s k c0 f) (h1 : VRep0 env s k c1 g) :
    Sat (world env) (mkV env k c0 c1) s
      (fun s' e => VRep env s' (k + 1) e (fun i => if i.testBit k then g i else f i)) := by
  refine Sat.atom fun s1 tid hi he => ?_
  obtain ⟨e, s2, h2, hi2, he2, hr⟩ := makeVEdge_spec hi tid hk (h0.ext hi0 he) (h1.ext hi0 he)
  exact ⟨e, s2, h2, hi2, he2, fun s' _ he' => hr.ext hi2 he'⟩

theorem mkV_sat {s : St W} (hi0 : Inv env s) {k : Nat} (hk : k < NQUBITS) {c0 c1 : Edge W} {f g : Nat → W}
    (h0 : VRep env s k c0 f) (h1 : VRep env s k c1 g) :
    Sat (world env) (mkV env k c0 c1) s
      (fun s' e => VRep env s' (k + 1) e (fun i => if i.testBit k then g i else f i)) :=
  mkV_sat0 hi0 hk h0.rep0 h1.rep0

theorem mkM_sat {s : St W} (hi0 : Inv env s) {k : Nat} (hk : k < NQUBITS) {c0 c1 c2 c3 : Edge W}
    {F : Bool → Bool → Nat → Nat → W} (h0 : MRep env s k c0 (F false false))
    (h1 : MRep env s k c1 (F false true)) (h2 : MRep env s k c2 (F true false))
    (h3 : MRep env s k c3 (F true true)) :
    Sat (world env) (mkM env k c0 c1 c2 c3) s
      (fun s' e => MRep env s' (k + 1) e (blocks k F) ∧ (e.w = 0 → e.n = none ∨ e.n = c0.n)) := by
  refine Sat.atom fun s1 tid hi he => ?_
  obtain ⟨e, s2, h2, hi2, he2, hr, hz⟩ := makeMEdge_spec hi tid hk (h0.ext hi0 he) (h1.ext hi0 he)
    (h2.ext hi0 he) (h3.ext hi0 he)
  exact ⟨e, s2, h2, hi2, he2, fun s' _ he' => ⟨hr.ext hi2 he', hz⟩⟩

end QDD
