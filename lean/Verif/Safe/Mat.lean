import Verif.Safe.Vec
/-!
# Memory safety without exact arithmetic: matrix operations

The matrix operations never fork (dd.cpp 869-1053), so the sequential semantics is the only one.  That a cached result
is usable at every level that covers its operands rests on the second of two identical recursive calls being answered
from the cache, so that `makeMEdge` sees equal diagonal blocks; this is what the proofs below track.
-/

set_option linter.unusedSectionVars false
set_option linter.unusedVariables false
set_option linter.unusedSimpArgs false

namespace QDD
namespace Safe
open RoundW Prog
variable {W : Type} [WOps W] [RoundW W] {env : Env W}

/-! ## Sequential runs -/

/-- `p`, run alone from `s`, returns and establishes `Q`. -/
def Runs {σ α : Type} (p : Prog σ α) (s : σ) (Q : α → σ → Prop) : Prop := ∃ a s', p.run s = .ok (a, s') ∧ Q a s'

theorem run_bind {σ α β : Type} (p : Prog σ α) (k : α → Prog σ β) (s : σ) :
    (p >>= k).run s = match p.run s with
      | .ok (a, s') => (k a).run s'
      | .error e => .error e := by
  show (bind' p k).run s = _
  induction p generalizing s with
  | ret a => rfl
  | step f k' ih =>
    simp only [bind', Prog.run]
    cases f 0 s with
    | error e => rfl
    | ok x => exact ih _ _ _
  | par p q k' _ _ ih =>
    simp only [bind', Prog.run]
    cases p.run s with
    | error e => rfl
    | ok x =>
      simp only
      cases q.run x.2 with
      | error e => rfl
      | ok y => exact ih _ _ _

theorem run_ok {σ α β : Type} {p : Prog σ α} {k : α → Prog σ β} {s s' : σ} {a : α} (h : p.run s = .ok (a, s')) :
    (p >>= k).run s = (k a).run s' := by rw [run_bind, h]

theorem Runs.bind {σ α β : Type} {p : Prog σ α} {k : α → Prog σ β} {s : σ} {Q : α → σ → Prop} {R : β → σ → Prop}
    (h : Runs p s Q) (hk : ∀ a s', p.run s = .ok (a, s') → Q a s' → Runs (k a) s' R) : Runs (p >>= k) s R := by
  obtain ⟨a, s', h1, h2⟩ := h
  obtain ⟨b, s2, h3, h4⟩ := hk a s' h1 h2
  exact ⟨b, s2, by rw [run_ok h1, h3], h4⟩

theorem Runs.pure {σ α : Type} {a : α} {s : σ} {Q : α → σ → Prop} (h : Q a s) : Runs (Pure.pure a : Prog σ α) s Q :=
  ⟨a, s, rfl, h⟩

theorem Runs.mono {σ α : Type} {p : Prog σ α} {s : σ} {Q R : α → σ → Prop} (h : Runs p s Q)
    (hq : ∀ a s', Q a s' → R a s') : Runs p s R := by
  obtain ⟨a, s', h1, h2⟩ := h
  exact ⟨a, s', h1, hq _ _ h2⟩

theorem _root_.QDD.Prog.Sat.runs {α : Type} {p : P W α} {s : St W} {Q} (h : Sat (world env) p s Q) (hi : Inv env s) :
    Runs p s fun a s' => Inv env s' ∧ Grow env s s' ∧ Q s' a := by
  obtain ⟨a, s', h1, h2, h3, h4⟩ := h.run hi
  exact ⟨a, s', h1, h2, h3, h4 s' h2 (Grow.refl env s')⟩

theorem run_atom {σ β : Type} (f : Nat → σ → Except Err (β × σ)) (s : σ) : (Prog.atom f).run s = f 0 s := by
  show (Prog.step f .ret).run s = _
  simp only [Prog.run]
  cases f 0 s with
  | error e => rfl
  | ok x => rfl

theorem readM_run {s : St W} {n} (h : MReg env s n) : ∃ nd, (readM n : P W _).run s = .ok (nd, s) ∧ ReadM env s n nd := by
  rcases h with rfl | ⟨p, nd, rfl, h⟩
  · exact ⟨_, by rw [readM, run_atom], .inl ⟨rfl, rfl⟩⟩
  · exact ⟨nd, by rw [readM, run_atom]; simp [h.1], .inr ⟨p, rfl, h⟩⟩

/-! ## The sum cache -/

theorem acOrderM {s : St W} (hi : Inv env s) {l r : Edge W} (hl : MReg env s l.n)
    (hr : MReg env s r.n) (hne : l.n ≠ r.n) :
    ∃ a b v, acOrder s.mt.mem l r = .ok (a, b, v) ∧ ((a = l ∧ b = r) ∨ (a = r ∧ b = l)) ∧
      ¬ (v < 0 ∨ (NQUBITS : Int) ≤ v) := by
  obtain ⟨lv, h1, h2, h3, h4, _⟩ := hl.evar hi
  obtain ⟨rv, g1, g2, g3, g4, _⟩ := hr.evar hi
  unfold acOrder
  rw [h1, g1]
  simp only
  have hz : 0 ≤ lv ∨ 0 ≤ rv := by
    by_cases hn : l.n = none
    · right; exact g4 (fun h => hne (hn.trans h.symm))
    · exact .inl (h4 hn)
  split
  · exact ⟨r, l, rv, rfl, .inr ⟨rfl, rfl⟩, by omega⟩
  · exact ⟨l, r, lv, rfl, .inl ⟨rfl, rfl⟩, by omega⟩

theorem Cov.reg {s : St W} (hi : Inv env s) {l r x} (hl : MReg env s l) (hr : MReg env s r) (h : Cov env s l r x) :
    MReg env s x := (h NQUBITS (hl.top hi) (hr.top hi)).reg

theorem eeq_refl (e : Edge W) : eeq e e = true := by simp [eeq, ae_refl]

theorem findAM_run {s : St W} (hi : Inv env s) {l r : Edge W} (hl : MReg env s l.n) (hr : MReg env s r.n)
    (hne : l.n ≠ r.n) :
    ∃ o, (findAM env l r).run s = .ok ((o, 0), s) ∧ ∀ e, o = some e → Cov env s l.n r.n e.n := by
  obtain ⟨a, b, v, hord, hab, hrng⟩ := acOrderM hi hl hr hne
  have key : ∃ o, (s.am 0).find s.mt.mem env.ham l r = .ok o ∧ ∀ e, o = some e → Cov env s l.n r.n e.n := by
    unfold ACache.find
    simp only [hord, if_neg hrng]
    cases hc : s.am 0 v (env.ham a b % NBUCKETS) with
    | none => exact ⟨none, rfl, fun e h => by cases h⟩
    | some e =>
      simp only
      by_cases hm : (eeq e.lhs a && eeq e.rhs b) = true
      · rw [if_pos hm]
        simp only [Bool.and_eq_true] at hm
        have h1 := eeq_n hm.1
        have h2 := eeq_n hm.2
        have hent := hi.am _ _ _ _ hc
        obtain ⟨v, hv, hv', _⟩ := (hent.2.2.reg hi hent.1 hent.2.1).evar hi
        have : v ≠ -2 := by omega
        rw [hv]
        simp only [if_pos this]
        refine ⟨_, rfl, fun x hx => ?_⟩
        cases hx
        have := hent.2.2
        rw [h1, h2] at this
        rcases hab with ⟨rfl, rfl⟩ | ⟨rfl, rfl⟩
        · exact this
        · exact this.symm
      · rw [if_neg hm]; exact ⟨none, rfl, fun e h => by cases h⟩
  obtain ⟨o, ho, hQ⟩ := key
  exact ⟨o, by rw [findAM, run_atom]; simp only [ho], hQ⟩

theorem setAM_run {s : St W} (hi : Inv env s) {l r res : Edge W} (hl : MReg env s l.n) (hr : MReg env s r.n)
    (hne : l.n ≠ r.n) (hres : Cov env s l.n r.n res.n) :
    ∃ s', (setAM env 0 l r res).run s = .ok ((), s') ∧ Inv env s' ∧ Grow env s s' ∧ s'.cm = s.cm ∧
      (findAM env l r).run s' = .ok ((some res, 0), s') := by
  obtain ⟨a, b, v, hord, hab, hrng⟩ := acOrderM hi hl hr hne
  have hset : (s.am 0).set s.mt.mem env.ham l r res = .ok (upd (s.am 0) v (upd (s.am 0 v)
      (env.ham a b % NBUCKETS) (some ⟨a, b, res⟩))) := by
    unfold ACache.set; simp only [hord, if_neg hrng]
  have hent : AMEnt env s ⟨a, b, res⟩ := by
    rcases hab with ⟨rfl, rfl⟩ | ⟨rfl, rfl⟩
    · exact ⟨hl, hr, hres⟩
    · exact ⟨hr, hl, hres.symm⟩
  obtain ⟨hi', he'⟩ := hi.caches (s' := { s with am := (upd s.am 0 (upd (s.am 0) v (upd (s.am 0 v) (env.ham a b % NBUCKETS) (some ⟨a, b, res⟩)))) }) rfl rfl hi.av
    (fun tid lv key e h => by
      rcases upd3_some h with rfl | h
      · exact hent
      · exact hi.am _ _ _ _ h) hi.cv hi.cm hi.uni
  refine ⟨_, by rw [setAM, run_atom]; simp only [hset], hi', he', rfl, ?_⟩
  obtain ⟨rv, hrv, hrv', _⟩ := (hres.reg hi hl hr).evar hi
  have : rv ≠ -2 := by omega
  rw [findAM, run_atom]
  simp only [ACache.find, hord, if_neg hrng, upd_same, eeq_refl, Bool.and_self, if_true, hrv, if_pos this]

/-! ## Sums -/

theorem mAdd_child {s : St W} (hi : Inv env s) {k : Nat} {e : Edge W} {nd} (h : MLv env s (k + 1) e.n)
    (hr : ReadM env s e.n nd) :
    (∀ r c, MLv env s k (mAddArg k nd e r c).n) ∧
    (MLv env s k e.n → ∀ r c, mAddArg k nd e r c = if r ≠ c then zeroE else e) := by
  rcases hr.cases h with ⟨p, h1, h2, h3⟩ | ⟨h1, h2⟩
  · have harg : ∀ r c, mAddArg k nd e r c = ⟨WOps.mul e.w (nd.child r c).w, (nd.child r c).n⟩ := fun r c => by
      unfold mAddArg; rw [if_pos ⟨h3, by simp [h1]⟩]
    refine ⟨fun r c => ?_, fun h => ?_⟩
    · rw [harg]; exact hi.mchild h2 r c h3
    · exfalso
      rw [h1] at h
      rcases h with h | ⟨q, nd', e', h4, h5⟩
      · cases h
      · cases e'
        rw [reg_fun h2 h4] at h3
        omega
  · have harg : ∀ r c, mAddArg k nd e r c = if r ≠ c then zeroE else e := fun r c => by
      unfold mAddArg; rw [if_neg h2]
    refine ⟨fun r c => ?_, fun _ => harg⟩
    rw [harg]; split
    · exact .inl rfl
    · exact h1

/-- `makeMEdge` on blocks of an operation that skips its level. -/
theorem makeM_strip {tid : Nat} {k : Int} {s : St W} {e0 e3 : Edge W} (hn : e0.n = e3.n) (hw : WOps.ae e0.w e3.w = true) :
    makeMEdge env tid k e0 zeroE zeroE e3 s = .ok (e0, s) := by
  have : WOps.az (zeroE : Edge W).w = true := z_az z_zero
  unfold makeMEdge
  rw [if_pos (by simp [strips, hn, hw, this])]

theorem maxW4_az {a : W} (ha : WOps.az a = true) : WOps.az (maxW4 a WOps.zero WOps.zero WOps.zero) = true := by
  have : WOps.az (WOps.zero : W) = true := z_az z_zero
  unfold maxW4
  simp only
  repeat' split
  all_goals assumption

theorem makeM_az {tid : Nat} {k : Int} {s : St W} {e0 : Edge W} (hw : WOps.az e0.w = true) {res : Edge W} {s' : St W}
    (h : makeMEdge env tid k e0 zeroE zeroE zeroE s = .ok (res, s')) : res.n = none := by
  unfold makeMEdge at h
  by_cases hs : strips e0 zeroE zeroE zeroE = true
  · rw [if_pos hs] at h
    cases h
    simp only [strips, Bool.and_eq_true, beq_iff_eq] at hs
    exact hs.1.1.1
  rw [if_neg hs] at h
  generalize UTable.getNode tid s.mt = pt at h
  obtain ⟨p, t⟩ := pt
  simp only [normalizeM] at h
  split at h
  · cases h
  next e t' hx =>
  cases h
  split at hx
  · cases hx; rfl
  rw [if_pos (by rw [RoundW.mul_one]; exact maxW4_az hw)] at hx
  cases hx; rfl

variable (env) in
/-- What a run of `mm_add2` establishes. -/
def AddPost (k : Nat) (l r : Edge W) (s : St W) (e : Edge W) (s' : St W) : Prop :=
  Inv env s' ∧ Grow env s s' ∧ Cov env s' l.n r.n e.n ∧ s'.cm = s.cm ∧
    ∃ e', (mmAdd2 env k l r).run s' = .ok (e', s') ∧ (e' = e ∨ (WOps.az e.w = true ∧ e' = zeroE))

theorem mkM_run {s : St W} (hi : Inv env s) {k : Nat} (hk : k < NQUBITS) {c0 c1 c2 c3 : Edge W} (h0 : MLv env s k c0.n)
    (h1 : MLv env s k c1.n) (h2 : MLv env s k c2.n) (h3 : MLv env s k c3.n) :
    ∃ e s', (mkM env k c0 c1 c2 c3).run s = .ok (e, s') ∧ makeMEdge env 0 k c0 c1 c2 c3 s = .ok (e, s') ∧
      Inv env s' ∧ Grow env s s' ∧ MLv env s' (k + 1) e.n ∧ s'.cm = s.cm := by
  obtain ⟨e, s', h, h4, h5, h6⟩ := makeMEdge_shape hi 0 hk h0 h1 h2 h3
  refine ⟨e, s', by rw [mkM, run_atom, h], h, h4, h5, h6, ?_⟩
  unfold makeMEdge at h
  split at h
  · cases h; rfl
  · simp only at h
    split at h
    · cases h
    · cases h; rfl

theorem mmAdd2_zero (k : Nat) : mmAdd2 env k zeroE zeroE = pure zeroE := by
  cases k <;> simp [mmAdd2, eeq_refl]

theorem not_both {s : St W} {k m : Nat} {l r x : Option Nat} (h : ¬ (MLv env s k l ∧ MLv env s k r))
    (hx : MLv env s (k + 1) x) : Cov env s l r x := fun m h1 h2 => by
  have : k + 1 ≤ m := by
    by_contra hc
    exact h ⟨h1.mono (by omega), h2.mono (by omega)⟩
  exact hx.mono this

theorem mmAdd2_run : ∀ {k : Nat} {s : St W} {l r : Edge W},
    k ≤ NQUBITS → Inv env s → MLv env s k l.n → MLv env s k r.n →
    Runs (mmAdd2 env k l r) s (AddPost env k l r s) := by
  intro k
  have left : ∀ {k} {s : St W} {l r : Edge W}, Inv env s → mmAdd2 env k l r = pure l → Runs (mmAdd2 env k l r) s (AddPost env k l r s) :=
    fun hi h => ⟨_, _, by rw [h]; rfl, hi, Grow.refl env _, fun _ h1 _ => h1, rfl, _, by rw [h]; rfl, .inl rfl⟩
  have right : ∀ {k} {s : St W} {l r : Edge W}, Inv env s → mmAdd2 env k l r = pure r → Runs (mmAdd2 env k l r) s (AddPost env k l r s) :=
    fun hi h => ⟨_, _, by rw [h]; rfl, hi, Grow.refl env _, fun _ _ h2 => h2, rfl, _, by rw [h]; rfl, .inl rfl⟩
  induction k with
  | zero =>
    intro s l r hk hi hl hr
    by_cases h0 : (eeq l zeroE || eeq r zeroE) = true
    · by_cases h1 : eeq l zeroE = true
      · exact right hi (by unfold mmAdd2; rw [if_pos h0, if_pos h1])
      · exact left hi (by unfold mmAdd2; rw [if_pos h0, if_neg h1])
    by_cases hz : WOps.az l.w = true
    · exact right hi (by unfold mmAdd2; rw [if_neg h0, if_pos hz])
    by_cases hz' : WOps.az r.w = true
    · exact left hi (by unfold mmAdd2; rw [if_neg h0, if_neg hz, if_pos hz'])
    have h1 := hl.term hi
    have h2 := hr.term hi
    have hp : mmAdd2 env 0 l r = pure ⟨WOps.add l.w r.w, none⟩ := by
      unfold mmAdd2; rw [if_neg h0, if_neg hz, if_neg hz', if_pos ⟨h1, h2⟩]
    exact ⟨_, _, by rw [hp]; rfl, hi, Grow.refl env _, fun _ _ _ => .inl rfl, rfl, _, by rw [hp]; rfl, .inl rfl⟩
  | succ k ih =>
    intro s l r hk hi hl hr
    by_cases h0 : (eeq l zeroE || eeq r zeroE) = true
    · by_cases h1 : eeq l zeroE = true
      · exact right hi (by unfold mmAdd2; rw [if_pos h0, if_pos h1])
      · exact left hi (by unfold mmAdd2; rw [if_pos h0, if_neg h1])
    by_cases hz : WOps.az l.w = true
    · exact right hi (by unfold mmAdd2; rw [if_neg h0, if_pos hz])
    by_cases hz' : WOps.az r.w = true
    · exact left hi (by unfold mmAdd2; rw [if_neg h0, if_neg hz, if_pos hz'])
    by_cases hn : l.n = r.n
    · have hp : mmAdd2 env (k + 1) l r = pure ⟨WOps.add l.w r.w, l.n⟩ := by
        unfold mmAdd2; rw [if_neg h0, if_neg hz, if_neg hz', if_pos hn]
      exact ⟨⟨WOps.add l.w r.w, l.n⟩, s, by rw [hp]; rfl, hi, Grow.refl env _, fun _ h _ => h, rfl,
        ⟨WOps.add l.w r.w, l.n⟩, by rw [hp]; rfl, .inl rfl⟩
    have hk' : k < NQUBITS := hk
    have hk0 : k ≤ NQUBITS := Nat.le_of_lt hk
    have hunf := show mmAdd2 env (k + 1) l r = _ by
      unfold mmAdd2; rw [if_neg h0, if_neg hz, if_neg hz', if_neg hn]
    have rerun : ∀ {t : St W} {e : Edge W}, (findAM env l r).run t = .ok ((some e, 0), t) →
        (mmAdd2 env (k + 1) l r).run t = .ok (if WOps.az e.w = true then zeroE else e, t) := by
      intro t e h
      rw [hunf, run_ok h]
      simp only
      split <;> rfl
    obtain ⟨o, ho, hQ⟩ := findAM_run hi hl.reg hr.reg hn
    cases o with
    | some e =>
      refine ⟨_, _, rerun ho, hi, Grow.refl env s, ?_, rfl, _, rerun ho, .inl rfl⟩
      split
      · exact fun _ _ _ => .inl rfl
      · exact hQ e rfl
    | none =>
      obtain ⟨nl, hrl, hnl⟩ := readM_run hl.reg
      obtain ⟨nr, hrr, hnr⟩ := readM_run hr.reg
      obtain ⟨ol, skl⟩ := mAdd_child hi hl hnl
      obtain ⟨or, skr⟩ := mAdd_child hi hr hnr
      obtain ⟨e0, s4, r0, i4, g4, c4, m4, st4⟩ := ih hk0 hi (ol false false) (or false false)
      obtain ⟨e1, s5, r1, i5, g5, c5, m5, _⟩ := ih hk0 i4 ((ol false true).ext g4) ((or false true).ext g4)
      have g35 := g4.trans g5
      obtain ⟨e2, s6, r2, i6, g6, c6, m6, _⟩ := ih hk0 i5 ((ol true false).ext g35) ((or true false).ext g35)
      have g36 := g35.trans g6
      obtain ⟨e3, s7, r3, i7, g7, c7, m7, _⟩ := ih hk0 i6 ((ol true true).ext g36) ((or true true).ext g36)
      have g37 := g36.trans g7
      have g57 := g6.trans g7
      have g47 := g5.trans g57
      obtain ⟨res, s8, rm, hmk, i8, g8, hres, m8⟩ := mkM_run i7 hk'
        ((c4 k ((ol _ _).ext g4) ((or _ _).ext g4)).ext g47) ((c5 k ((ol _ _).ext g35) ((or _ _).ext g35)).ext g57)
        ((c6 k ((ol _ _).ext g36) ((or _ _).ext g36)).ext g7) (c7 k ((ol _ _).ext g37) ((or _ _).ext g37))
      have g38 := g37.trans g8
      have hcov : Cov env s8 l.n r.n res.n := by
        by_cases hb : MLv env s k l.n ∧ MLv env s k r.n
        · rw [skl hb.1, skr hb.2] at r0 r1 r2 r3
          simp only [ne_eq, not_true_eq_false, if_false, Bool.false_eq_true, not_false_eq_true, if_true,
            Bool.true_eq_false] at r0 r1 r2 r3
          rw [mmAdd2_zero] at r1 r2
          cases r1
          cases r2
          have c4' : Cov env s4 l.n r.n e0.n := by
            rw [skl hb.1, skr hb.2] at c4
            exact c4
          obtain ⟨e', st, hst⟩ := st4
          rw [skl hb.1, skr hb.2] at st
          simp only [ne_eq, not_true_eq_false, if_false] at st
          rw [st] at r3
          cases r3
          rcases hst with rfl | ⟨haz, rfl⟩
          · rw [makeM_strip rfl (ae_refl _)] at hmk
            cases hmk
            exact c4'
          · rw [makeM_az haz hmk]
            exact fun _ _ _ => .inl rfl
        · refine not_both (m := 0) (k := k) (fun h => hb ⟨hl.reg.back g38 h.1, hr.reg.back g38 h.2⟩) hres
      obtain ⟨s9, rs, i9, g9, m9, hf9⟩ := setAM_run i8 (hl.reg.ext g38) (hr.reg.ext g38) hn hcov
      refine ⟨res, s9, ?_, i9, g38.trans g9, hcov.ext g9 (hl.reg.ext g38) (hr.reg.ext g38), by
        rw [m9, m8, m7, m6, m5, m4], _, rerun hf9, ?_⟩
      · rw [hunf, run_ok ho]
        simp only
        rw [run_ok hrl, run_ok hrr, run_ok r0, run_ok r1, run_ok r2, run_ok r3, run_ok rm, run_ok rs]
        rfl
      · split
        · next h => exact .inr ⟨h, rfl⟩
        · exact .inl rfl

end Safe
end QDD
