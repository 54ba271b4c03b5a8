import Verif.Safe.Gc
import Verif.Safe.Gates
import Verif.Safe.Vec
import Verif.Safe.MeasureModel
/-!
# Memory safety of the measurement functions under rounding
-/

set_option linter.unusedSectionVars false
set_option linter.unusedVariables false
set_option linter.unusedSimpArgs false

namespace QDD

/-- Laws of `double` arithmetic used by the measurement code.  They hold of IEEE arithmetic, with any rounding, as long as
no operation overflows or yields NaN (`+0.0` and `-0.0` are not told apart). -/
class RoundR (R W : Type) [WOps W] [RoundW W] [ROps R W] : Prop where
  mag2_z : ∀ {a : W}, RoundW.Z a → (ROps.mag2 a : R) = ROps.zero W
  mag2_one : (ROps.mag2 (WOps.one : W) : R) = ROps.one W
  mag2_nn : ∀ a : W, ROps.lt W (ROps.mag2 a) (ROps.zero W : R) = false
  mul_zero : ∀ x : R, ROps.mul W x (ROps.zero W) = ROps.zero W
  zero_mul : ∀ x : R, ROps.mul W (ROps.zero W) x = ROps.zero W
  mul_one : ∀ x : R, ROps.mul W x (ROps.one W) = x
  one_mul : ∀ x : R, ROps.mul W (ROps.one W) x = x
  add_zero : ∀ x : R, ROps.add W x (ROps.zero W) = x
  zero_add : ∀ x : R, ROps.add W (ROps.zero W) x = x
  sub_self : ROps.sub W (ROps.one W) (ROps.one W) = (ROps.zero W : R)
  div_self : ∀ {x : R}, ROps.lt W (ROps.zero W) x = true → ROps.div W x x = ROps.one W
  zero_div : ∀ {x : R}, ROps.lt W (ROps.zero W) x = true → ROps.div W (ROps.zero W) x = ROps.zero W
  eq0_zero : ROps.eq0 W (ROps.zero W : R) = true
  eq0_eq : ∀ {x : R}, ROps.eq0 W x = true → x = ROps.zero W
  eq0_pos : ∀ {x : R}, ROps.lt W (ROps.zero W) x = true → ROps.eq0 W x = false
  ge_one : ROps.lt W (ROps.one W) (ROps.one W : R) = false
  /-- numbers that are not below one are positive -/
  pos : ∀ {x : R}, ROps.lt W x (ROps.one W) = false → ROps.lt W (ROps.zero W) x = true
  /-- products of nonnegative numbers are nonnegative -/
  mul_nn : ∀ {x y : R}, ROps.lt W x (ROps.zero W) = false → ROps.lt W y (ROps.one W) = false →
    ROps.lt W (ROps.mul W x y) (ROps.zero W) = false
  /-- rounding is monotone: adding a nonnegative number to one that is at least one gives at least one -/
  add_ge_left : ∀ {x y : R}, ROps.lt W x (ROps.one W) = false → ROps.lt W y (ROps.zero W) = false →
    ROps.lt W (ROps.add W x y) (ROps.one W) = false
  add_ge_right : ∀ {x y : R}, ROps.lt W x (ROps.zero W) = false → ROps.lt W y (ROps.one W) = false →
    ROps.lt W (ROps.add W x y) (ROps.one W) = false

namespace Safe
open RoundW Prog
variable {R W : Type} [WOps W] [RoundW W] [ROps R W] [RoundR R W] {env : Env W}

/-- The `probs` map: every entry is at least one, belongs to the terminal or a live node, and the children of that node have
entries too. -/
structure MemoOk (env : Env W) (s : St W) (m : Memo R) : Prop where
  ge : ∀ n x, m n = some x → ROps.lt W x (ROps.one W) = false
  node : ∀ p, m (some p) ≠ none → ∃ nd, UTable.Reg env.hv s.vt p nd ∧ ∀ b, m (nd.child b).n ≠ none

theorem MemoOk.empty (s : St W) : MemoOk env s (fun _ => none : Memo R) :=
  ⟨fun _ _ h => (by cases h), fun _ h => (h rfl).elim⟩

theorem MemoOk.ext {s s' : St W} {m : Memo R} (h : MemoOk env s m) (he : Grow env s s') : MemoOk env s' m :=
  ⟨h.ge, fun p hp => by
    obtain ⟨nd, h1, h2⟩ := h.node p hp
    exact ⟨nd, he.1 _ _ h1, h2⟩⟩

theorem MemoOk.kids {s : St W} {m : Memo R} (h : MemoOk env s m) {p nd} (hr : UTable.Reg env.hv s.vt p nd)
    (hp : m (some p) ≠ none) : ∃ x0 x1, m nd.c0.n = some x0 ∧ m nd.c1.n = some x1 ∧
      ROps.lt W x0 (ROps.one W) = false ∧ ROps.lt W x1 (ROps.one W) = false := by
  obtain ⟨nd', h1, h2⟩ := h.node p hp
  have := reg_fun hr h1
  subst this
  obtain ⟨x0, e0⟩ := Option.ne_none_iff_exists'.1 (h2 false)
  obtain ⟨x1, e1⟩ := Option.ne_none_iff_exists'.1 (h2 true)
  exact ⟨x0, x1, e0, e1, h.ge _ _ e0, h.ge _ _ e1⟩

theorem MemoOk.child {s : St W} {m : Memo R} (h : MemoOk env s m) {p nd} (hr : UTable.Reg env.hv s.vt p nd)
    (hp : m (some p) ≠ none) (b : Bool) : m (nd.child b).n ≠ none := by
  obtain ⟨nd', h1, h2⟩ := h.node p hp
  have := reg_fun hr h1
  subst this
  exact h2 b

theorem wt_nn (e : Edge W) {x : R} (hx : ROps.lt W x (ROps.one W) = false) :
    ROps.lt W (Fl.wt e x) (ROps.zero W) = false := RoundR.mul_nn (RoundR.mag2_nn e.w) hx

theorem wt_one (e : Edge W) (h : e.w = WOps.one) (x : R) : Fl.wt e x = x := by
  unfold Fl.wt; rw [h, RoundR.mag2_one, RoundR.one_mul]

theorem VPtr.node {s : St W} {k n} (h : VPtr env s (k + 1) n) :
    ∃ p nd, n = some p ∧ UTable.Reg env.hv s.vt p nd ∧ nd.v = (k : Int) := by
  rcases h with ⟨h, _⟩ | ⟨p, nd, h1, h2, h3⟩
  · cases h
  · exact ⟨p, nd, h1, h2, by push_cast at h3; omega⟩

/-- `assignProbabilities`. -/
theorem assignProbs_ok {s : St W} (hi : Inv env s) : ∀ {k : Nat} {e : Edge W} (f : Nat) (m : Memo R), k ≤ f →
    VLv env s k e → MemoOk env s m → ∃ x m' y, Fl.assignProbs s.vt.mem f e m = .ok (x, m') ∧ MemoOk env s m' ∧
      m' e.n = some y ∧ x = Fl.wt e y ∧ ∀ n, m n ≠ none → m' n ≠ none := by
  intro k
  induction k with
  | zero =>
    intro e f m hf he hm
    have hn := he.term hi
    have : ∀ y, m none = some y → ∃ x m' y, Fl.assignProbs s.vt.mem f e m = .ok (x, m') ∧ MemoOk env s m' ∧
      m' e.n = some y ∧ x = Fl.wt e y ∧ ∀ n, m n ≠ none → m' n ≠ none := by
      intro y hy
      refine ⟨Fl.wt e y, m, y, ?_, hm, by rw [hn, hy], rfl, fun n h => h⟩
      unfold Fl.assignProbs
      rw [hn, hy]
    cases hy : m none with
    | some y => exact this y hy
    | none =>
      refine ⟨Fl.wt e (ROps.one W), upd m none (some (ROps.one W)), ROps.one W, ?_, ?_, by rw [hn]; simp, rfl, ?_⟩
      · unfold Fl.assignProbs
        rw [hn, hy]
      · refine ⟨fun n x h => ?_, fun p hp => ?_⟩
        · by_cases hn : n = none
          · subst hn; simp at h; subst h; exact RoundR.ge_one
          · rw [upd_ne _ _ _ hn] at h; exact hm.ge _ _ h
        · rw [upd_ne _ _ _ (by simp)] at hp
          obtain ⟨nd, h1, h2⟩ := hm.node p hp
          refine ⟨nd, h1, fun b => ?_⟩
          by_cases hb : (nd.child b).n = none
          · rw [hb]; simp
          · rw [upd_ne _ _ _ hb]; exact h2 b
      · intro n h
        by_cases hb : n = none
        · rw [hb]; simp
        · rw [upd_ne _ _ _ hb]; exact h
  | succ k ih =>
    intro e f m hf he hm
    cases hy : m e.n with
    | some y =>
      refine ⟨Fl.wt e y, m, y, ?_, hm, hy, rfl, fun n h => h⟩
      unfold Fl.assignProbs
      rw [hy]
    | none =>
      rcases he with hp | ⟨_, hn⟩
      · obtain ⟨p, nd, hn, hr, hv⟩ := hp.node
        obtain ⟨f, rfl⟩ : ∃ g, f = g + 1 := ⟨f - 1, by omega⟩
        obtain ⟨a, m1, y0, h1, h2, h3, h4, h5⟩ := ih f m (by omega) (hi.vchild hr false hv) hm
        obtain ⟨b, m2, y1, g1, g2, g3, g4, g5⟩ := ih f m1 (by omega) (hi.vchild hr true hv) h2
        simp only [VNode.child, Bool.false_eq_true, if_false, if_true] at h1 h3 h4 g1 g3 g4
        have na : ROps.lt W a (ROps.zero W) = false := by rw [h4]; exact wt_nn _ (h2.ge _ _ h3)
        have nb : ROps.lt W b (ROps.zero W) = false := by rw [g4]; exact wt_nn _ (g2.ge _ _ g3)
        have big : ROps.lt W (ROps.add W a b) (ROps.one W) = false := by
          obtain ⟨bb, hb, _⟩ := hi.un p nd hr
          cases bb
          · refine RoundR.add_ge_left ?_ nb
            rw [h4, wt_one nd.c0 hb]; exact h2.ge _ _ h3
          · refine RoundR.add_ge_right na ?_
            rw [g4, wt_one nd.c1 hb]; exact g2.ge _ _ g3
        refine ⟨Fl.wt e (ROps.add W a b), upd m2 (some p) (some (ROps.add W a b)), ROps.add W a b, ?_, ?_,
          by rw [hn]; simp, rfl, ?_⟩
        · unfold Fl.assignProbs
          rw [hn] at hy
          simp only [hn, hy, hr.1, h1, g1]
        · refine ⟨fun n x h => ?_, fun q hq => ?_⟩
          · by_cases hnp : n = some p
            · subst hnp; simp at h; subst h; exact big
            · rw [upd_ne _ _ _ hnp] at h; exact g2.ge _ _ h
          · have key : ∀ {n : Option Nat}, m2 n ≠ none → upd m2 (some p) (some (ROps.add W a b)) n ≠ none := by
              intro n h
              by_cases hb : n = some p
              · rw [hb]; simp
              · rw [upd_ne _ _ _ hb]; exact h
            by_cases hqp : q = p
            · subst hqp
              refine ⟨nd, hr, fun b => ?_⟩
              cases b
              · exact key (g5 _ (by show m1 nd.c0.n ≠ none; rw [h3]; simp))
              · exact key (by show m2 nd.c1.n ≠ none; rw [g3]; simp)
            · rw [upd_ne _ _ _ (by simpa using hqp)] at hq
              obtain ⟨nd', h6, h7⟩ := g2.node q hq
              exact ⟨nd', h6, fun b => key (h7 b)⟩
        · intro n h
          by_cases hb : n = some p
          · rw [hb]; simp
          · rw [upd_ne _ _ _ hb]; exact g5 _ (h5 _ h)
      · -- a zero edge: terminal
        obtain ⟨x, m', y, h⟩ := ih (e := e) f m (by omega) (.inr ⟨‹_›, hn⟩) hm
        exact ⟨x, m', y, h⟩

theorem VLv.lt {s : St W} (hi : Inv env s) {k e} (h : VLv env s k e) (hn : e.n ≠ none) : 0 < k ∧ k ≤ NQUBITS := by
  rcases h with (⟨_, h⟩ | ⟨p, nd, _, h2, h3⟩) | ⟨_, h⟩
  · exact (hn h).elim
  · obtain ⟨m, hm, hm'⟩ := hi.vlevel h2
    omega
  · exact (hn h).elim

theorem ensureProbs_ok {s : St W} (hi : Inv env s) {k : Nat} {e : Edge W} (m : Memo R) (hk : k ≤ NQUBITS)
    (he : VLv env s k e) (hm : MemoOk env s m) : ∃ m', Fl.ensureProbs s.vt.mem e m = .ok m' ∧ MemoOk env s m' ∧
      m' e.n ≠ none := by
  unfold Fl.ensureProbs
  cases hy : m e.n with
  | some y => exact ⟨m, rfl, hm, by rw [hy]; simp⟩
  | none =>
    obtain ⟨x, m', y, h1, h2, h3, _⟩ := assignProbs_ok hi (NQUBITS + 1) m (by omega) he hm
    simp only [h1]
    exact ⟨m', rfl, h2, by rw [h3]; simp⟩

/-- What the two branch weights look like at a node. -/
theorem pick {s : St W} (hi : Inv env s) {p nd} {k : Nat} (hr : UTable.Reg env.hv s.vt p nd) (hv : nd.v = (k : Int))
    {x0 x1 : R} (h0 : ROps.lt W x0 (ROps.one W) = false) (h1 : ROps.lt W x1 (ROps.one W) = false) :
    let p0 := ROps.mul W x0 (ROps.mag2 nd.c0.w)
    let p1 := ROps.mul W x1 (ROps.mag2 nd.c1.w)
    let tmp := ROps.add W p0 p1
    (VPtr env s k nd.c0.n ∧ VPtr env s k nd.c1.n) ∨
    (VPtr env s k nd.c1.n ∧ p0 = ROps.zero W ∧ ROps.lt W (ROps.zero W) tmp = true ∧ ROps.div W p0 tmp = ROps.zero W) ∨
    (VPtr env s k nd.c0.n ∧ ROps.lt W (ROps.zero W) tmp = true ∧ ROps.div W p0 tmp = ROps.one W) := by
  intro p0 p1 tmp
  have c0 : VLv env s k nd.c0 := hi.vchild hr false hv
  have c1 : VLv env s k nd.c1 := hi.vchild hr true hv
  obtain ⟨b, hb1, hb2⟩ := hi.un p nd hr
  rw [hv, Int.toNat_natCast] at hb2
  cases b
  · rcases c1 with c1 | ⟨hz, _⟩
    · exact .inl ⟨hb2, c1⟩
    · refine .inr (.inr ⟨hb2, ?_⟩)
      have hb1 : nd.c0.w = WOps.one := hb1
      have e0 : p0 = x0 := by show ROps.mul W x0 (ROps.mag2 nd.c0.w) = x0; rw [hb1, RoundR.mag2_one, RoundR.mul_one]
      have e1 : p1 = ROps.zero W := by
        show ROps.mul W x1 (ROps.mag2 nd.c1.w) = _; rw [RoundR.mag2_z hz, RoundR.mul_zero]
      have e2 : tmp = x0 := by show ROps.add W p0 p1 = x0; rw [e0, e1, RoundR.add_zero]
      rw [e2, e0]
      exact ⟨RoundR.pos h0, RoundR.div_self (RoundR.pos h0)⟩
  · rcases c0 with c0 | ⟨hz, _⟩
    · exact .inl ⟨c0, hb2⟩
    · refine .inr (.inl ⟨hb2, ?_⟩)
      have hb1 : nd.c1.w = WOps.one := hb1
      have e1 : p1 = x1 := by show ROps.mul W x1 (ROps.mag2 nd.c1.w) = x1; rw [hb1, RoundR.mag2_one, RoundR.mul_one]
      have e0 : p0 = ROps.zero W := by
        show ROps.mul W x0 (ROps.mag2 nd.c0.w) = _; rw [RoundR.mag2_z hz, RoundR.mul_zero]
      have e2 : tmp = x1 := by show ROps.add W p0 p1 = x1; rw [e0, e1, RoundR.zero_add]
      rw [e2, e0]
      exact ⟨rfl, RoundR.pos h1, RoundR.zero_div (RoundR.pos h1)⟩

/-! ## `measureAll` -/

theorem sampleLoop_ok {s : St W} (hi : Inv env s) {m : Memo R} (hm : MemoOk env s m) (draw : Nat → R) {K : Nat}
    (hd : ∀ u < K, ROps.lt W (draw u) (ROps.zero W) = false ∧ ROps.lt W (draw u) (ROps.one W) = true) :
    ∀ (i t : Nat) (cur : Option Nat) (res : List Bool), i + t ≤ K → VPtr env s i cur → m cur ≠ none → i ≤ res.length →
    ∃ l, Fl.sampleLoop s.vt.mem m draw i t cur res = .ok l ∧ l.length = res.length := by
  intro i
  induction i with
  | zero => intro t cur res _ _ _ _; exact ⟨res, rfl, rfl⟩
  | succ i ih =>
    intro t cur res ht hc hmc hl
    obtain ⟨p, nd, rfl, hr, hv⟩ := hc.node
    obtain ⟨x0, x1, e0, e1, g0, g1⟩ := hm.kids hr hmc
    have left : VPtr env s i nd.c0.n → ∃ l, Fl.sampleLoop s.vt.mem m draw i (t + 1) nd.c0.n res = .ok l ∧
        l.length = res.length := fun h => ih (t + 1) _ res (by omega) h (hm.child hr hmc false) (by omega)
    have right : VPtr env s i nd.c1.n →
        ∃ l, (if nd.v < 0 ∨ (res.length : Int) ≤ nd.v then Except.error Err.oob
          else Fl.sampleLoop s.vt.mem m draw i (t + 1) nd.c1.n (res.set nd.v.toNat true)) = .ok l ∧
        l.length = res.length := fun h => by
      rw [if_neg (by omega)]
      obtain ⟨l, h1, h2⟩ := ih (t + 1) _ (res.set nd.v.toNat true) (by omega) h (hm.child hr hmc true) (by simp; omega)
      exact ⟨l, h1, by rw [h2]; simp⟩
    unfold Fl.sampleLoop
    simp only [hr.1, e0, e1]
    have := pick hi hr hv g0 g1
    dsimp only at this
    generalize ROps.mul W x0 (ROps.mag2 nd.c0.w) = p0 at this ⊢
    generalize ROps.add W p0 (ROps.mul W x1 (ROps.mag2 nd.c1.w)) = tmp at this ⊢
    have hdt := hd t (by omega)
    rcases this with ⟨h0, h1⟩ | ⟨h1, hp, hpos, hdiv⟩ | ⟨h0, hpos, hdiv⟩
    · generalize (if ROps.eq0 W tmp = true then ROps.half W else ROps.div W p0 tmp) = q
      split
      · exact left h0
      · exact right h1
    · have hq : (if ROps.eq0 W tmp = true then ROps.half W else ROps.div W p0 tmp) = ROps.zero W := by
        rw [if_neg (by rw [RoundR.eq0_pos hpos]; simp), hdiv]
      rw [hq, if_neg (by rw [hdt.1]; simp)]
      exact right h1
    · have hq : (if ROps.eq0 W tmp = true then ROps.half W else ROps.div W p0 tmp) = ROps.one W := by
        rw [if_neg (by rw [RoundR.eq0_pos hpos]; simp), hdiv]
      rw [hq, if_pos hdt.2]
      exact left h0

theorem sampleAll_ok {s : St W} (hi : Inv env s) {m : Memo R} (hm : MemoOk env s m) (draw : Nat → R) {k : Nat}
    {e : Edge W} (he : VLv env s k e) (hn : e.n ≠ none)
    (hd : ∀ u < k, ROps.lt W (draw u) (ROps.zero W) = false ∧ ROps.lt W (draw u) (ROps.one W) = true) :
    ∃ l m', Fl.sampleAll s e m draw = .ok (l, m') ∧ MemoOk env s m' ∧ l.length = k := by
  have hp : VPtr env s k e.n := he.resolve_right fun h => hn h.2
  obtain ⟨hk0, hk⟩ := he.lt hi hn
  obtain ⟨m', h1, h2, h3⟩ := ensureProbs_ok hi m hk he hm
  have hv : (k : Int) - 1 + 1 = k := by omega
  obtain ⟨l, h4, h5⟩ := sampleLoop_ok hi h2 draw hd k 0 e.n (List.replicate k false) (by omega) hp h3 (by simp)
  refine ⟨l, m', ?_, h2, by rw [h5]; simp⟩
  unfold Fl.sampleAll
  simp only [hp.evar, h1, hv, Int.toNat_natCast, h4]

theorem collapseLoop_sat : ∀ (l : List Bool) (p : Nat) {s : St W} {e : Edge W}, p + l.length ≤ NQUBITS → VLv env s p e →
    Sat (world env) (Fl.collapseLoop env l p e) s (fun s' e => VLv env s' (p + l.length) e) := by
  intro l
  induction l with
  | nil => intro p s e _ h; exact Sat.pure fun s' _ he => h.ext he
  | cons b l ih =>
    intro p s e hl h
    simp only [List.length_cons] at hl ⊢
    unfold Fl.collapseLoop
    have hz := zeroE_vlv (env := env) s p
    have h0 : VLv env s p (if b = true then zeroE else e) := by split <;> assumption
    have h1 : VLv env s p (if b = true then e else zeroE) := by split <;> assumption
    refine Sat.bind (mkV_sat (k := p) (by omega) h0 h1) fun s1 e1 hi1 he1 g1 => ?_
    have := ih (p + 1) (by omega) g1
    rwa [show p + 1 + l.length = p + (l.length + 1) by omega] at this

theorem peekS_sat {α : Type} {f : St W → Except Err α} {s : St W} {Q : St W → α → Prop}
    (h : ∀ s1, Inv env s1 → Grow env s s1 → ∃ a, f s1 = .ok a ∧ ∀ s', Inv env s' → Grow env s1 s' → Q s' a) :
    Sat (world env) (peek f) s Q := by
  refine Sat.atom fun s1 tid hi1 he1 => ?_
  obtain ⟨a, h1, h2⟩ := h s1 hi1 he1
  exact ⟨a, s1, by simp only [h1], hi1, Grow.refl env _, h2⟩

theorem measureAll_sat {s : St W} {m : Memo R} (hi : Inv env s) (hm : MemoOk env s m) (draw : Nat → R) {k : Nat}
    {e : Edge W} (c : Bool) (he : VLv env s k e) (hn : e.n ≠ none)
    (hd : ∀ u < k, ROps.lt W (draw u) (ROps.zero W) = false ∧ ROps.lt W (draw u) (ROps.one W) = true) :
    Sat (world env) (Fl.measureAll env e c m draw) s
      (fun s' r => VLv env s' k r.2.1 ∧ MemoOk env s' r.2.2) := by
  unfold Fl.measureAll
  have hk := (he.lt hi hn).2
  refine Sat.bind (Q := fun s' r => r.1.length = k ∧ MemoOk env s' r.2) (peekS_sat fun s1 hi1 he1 => ?_) ?_
  · obtain ⟨l, m', h1, h2, h3⟩ := sampleAll_ok hi1 (hm.ext he1) draw (he.ext he1) hn hd
    exact ⟨(l, m'), h1, fun s' _ he' => ⟨h3, h2.ext he'⟩⟩
  · rintro s1 ⟨l, m'⟩ hi1 he1 ⟨h1, h2⟩
    dsimp only at h1 h2 ⊢
    have key : ∀ p : P W (Edge W), Sat (world env) p s1 (fun s' e' => VLv env s' k e') →
        Sat (world env) (do let e' ← p; pure (l.reverse, e', m')) s1
          (fun s' r => VLv env s' k r.2.1 ∧ MemoOk env s' r.2.2) := by
      intro p hp
      refine Sat.bind hp fun s2 e' hi2 he2 h3 => ?_
      exact Sat.pure fun s3 hi3 he3 => ⟨h3.ext he3, h2.ext (he2.trans he3)⟩
    split
    · refine key _ ?_
      have := collapseLoop_sat (env := env) l 0 (s := s1) (by omega) (oneE_vlv s1)
      rwa [h1, Nat.zero_add] at this
    · exact key _ (Sat.pure fun s' _ he' => (he.ext he1).ext he')

/-! ## `probabilities` -/

theorem probWalk_ok {s : St W} (hi : Inv env s) {m : Memo R} (hm : MemoOk env s m) (i : Nat) :
    ∀ (j k : Nat) (cur : Option Nat) (prob : R), VPtr env s k cur → m cur ≠ none → (k = j ∨ 0 < k ∧ prob = ROps.zero W) →
    ∃ x, Fl.probWalk s.vt.mem m i j cur prob = .ok x := by
  intro j
  induction j with
  | zero => intro k cur prob _ _ _; exact ⟨prob, rfl⟩
  | succ j ih =>
    intro k cur prob hc hmc hk
    obtain ⟨l, rfl⟩ : ∃ l, k = l + 1 := ⟨k - 1, by omega⟩
    obtain ⟨p, nd, rfl, hr, hv⟩ := hc.node
    obtain ⟨x0, x1, e0, e1, g0, g1⟩ := hm.kids hr hmc
    unfold Fl.probWalk
    simp only [hr.1, e0, e1]
    have := pick hi hr hv g0 g1
    dsimp only at this
    generalize ROps.mul W x0 (ROps.mag2 nd.c0.w) = p0 at this ⊢
    generalize ROps.add W p0 (ROps.mul W x1 (ROps.mag2 nd.c1.w)) = tmp at this ⊢
    generalize hp0 : (if ROps.lt W (ROps.zero W) tmp = true then ROps.div W p0 tmp else p0) = q0
    generalize hpr : (if i.testBit j = true then ROps.mul W prob (ROps.sub W (ROps.one W) q0) else ROps.mul W prob q0) = pr
    by_cases hz : ROps.eq0 W pr = true
    · rw [if_pos hz]
      exact ih (l + 1) _ pr hc hmc (.inr ⟨by omega, RoundR.eq0_eq hz⟩)
    · rw [if_neg hz]
      have hne : pr ≠ ROps.zero W := fun h => hz (by rw [h]; exact RoundR.eq0_zero)
      have hlj : l = j := by
        rcases hk with hk | ⟨_, hk⟩
        · omega
        · exfalso; apply hne; rw [← hpr, hk]; split <;> exact RoundR.zero_mul _
      subst hlj
      refine ih l _ pr ?_ (hm.child hr hmc _) (.inl rfl)
      rcases this with ⟨h0, h1⟩ | ⟨h1, hp, hpos, hdiv⟩ | ⟨h0, hpos, hdiv⟩
      · cases i.testBit l
        · exact h0
        · exact h1
      · cases hb : i.testBit l
        · exfalso; apply hne
          rw [hb] at hpr
          simp only [Bool.false_eq_true, if_false] at hpr
          rw [← hpr, ← hp0, if_pos hpos, hdiv, RoundR.mul_zero]
        · exact h1
      · cases hb : i.testBit l
        · exact h0
        · exfalso; apply hne
          rw [hb] at hpr
          simp only [if_true] at hpr
          rw [← hpr, ← hp0, if_pos hpos, hdiv, RoundR.sub_self, RoundR.mul_zero]

theorem probabilities_ok {s : St W} (hi : Inv env s) {m : Memo R} (hm : MemoOk env s m) {k : Nat}
    {e : Edge W} (he : VLv env s k e) (hn : e.n ≠ none) (hk : k ≤ 30) :
    ∃ l m', Fl.probabilities s e m = .ok (l, m') ∧ MemoOk env s m' := by
  have hp : VPtr env s k e.n := he.resolve_right fun h => hn h.2
  obtain ⟨x, m', y, h1, h2, h3, _⟩ := assignProbs_ok hi (NQUBITS + 1) m (show k ≤ NQUBITS + 1 by unfold NQUBITS; omega)
    he hm
  have loop : ∀ n i, ∃ l, Fl.probLoop s.vt.mem m' k e.n n i = .ok l := by
    intro n
    induction n with
    | zero => intro i; exact ⟨[], rfl⟩
    | succ n ih =>
      intro i
      obtain ⟨x, hx⟩ := probWalk_ok hi h2 i k k e.n (ROps.one W) hp (by rw [h3]; simp) (.inl rfl)
      obtain ⟨l, hl⟩ := ih (i + 1)
      exact ⟨x :: l, by unfold Fl.probLoop; simp only [hx, hl]⟩
  obtain ⟨l, hl⟩ := loop (2 ^ k) 0
  have hv : (k : Int) - 1 + 1 = k := by omega
  refine ⟨l, m', ?_, h2⟩
  unfold Fl.probabilities
  simp only [hp.evar, h1, hv, Int.toNat_natCast, hl]
  rw [if_neg (by omega)]

/-! ## `determineMeasurementProbabilities` -/

/-- Level of a queue entry. -/
def qlv (mem : Nat → Option (VNode W)) : Option Nat → Nat
  | none => 0
  | some p => match mem p with
    | none => 0
    | some nd => (nd.v + 1).toNat

theorem qlv_eq {s : St W} {k n} (h : VPtr env s k n) : qlv s.vt.mem n = k := by
  rcases h with ⟨rfl, rfl⟩ | ⟨p, nd, rfl, hr, hv⟩
  · rfl
  · simp only [qlv, hr.1]; omega

/-- Work left in the queue. -/
def qwork (mem : Nat → Option (VNode W)) (q : List (Option Nat)) : Nat := (q.map fun n => 2 ^ qlv mem n - 1).sum

/-- Queue invariant while the children of a node of level `L + 1` are handled. -/
structure Mid (env : Env W) (s : St W) (root : Option Nat) (index L : Nat) (b : Bfs R) : Prop where
  ok : ∀ n ∈ b.q, VPtr env s (qlv s.vt.mem n) n ∧ index < qlv s.vt.mem n
  sub : ∀ n ∈ b.q, n ∈ b.visited
  vis : ∀ n ∈ b.visited, n ∉ b.q → L < qlv s.vt.mem n
  sorted : b.q.Pairwise fun x y => qlv s.vt.mem y ≤ qlv s.vt.mem x
  two : ∀ n ∈ b.q, L ≤ qlv s.vt.mem n ∧ qlv s.vt.mem n ≤ L + 1
  memo : ∀ m : Memo R, MemoOk env s m → m root ≠ none → ∀ n ∈ b.q, m n ≠ none

theorem bfsChild_ok {s : St W} {root index L} {b : Bfs R} (hb : Mid env s root index L b)
    {c : Edge W} (hc : VLv env s L c) (hL : index < L) (prob : R)
    (hmemo : ∀ m : Memo R, MemoOk env s m → m root ≠ none → m c.n ≠ none) :
    Mid env s root index L (Fl.bfsChild c prob b) ∧
    qwork s.vt.mem (Fl.bfsChild c prob b).q ≤ qwork s.vt.mem b.q + (2 ^ L - 1) ∧
    (b.q ≠ [] ∨ WOps.az c.w = false → (Fl.bfsChild c prob b).q ≠ []) := by
  unfold Fl.bfsChild
  by_cases hz : WOps.az c.w = true
  · rw [if_pos hz]
    refine ⟨hb, by omega, fun h => h.resolve_right (fun h => by rw [hz] at h; cases h)⟩
  · rw [if_neg hz]
    have hp : VPtr env s L c.n := hc.ptr hz
    have hl := qlv_eq hp
    dsimp only
    by_cases hv : c.n ∈ b.visited
    · rw [if_pos hv]
      have hq : c.n ∈ b.q := by
        by_contra h
        have := hb.vis _ hv h
        omega
      refine ⟨⟨hb.ok, hb.sub, hb.vis, hb.sorted, hb.two, hb.memo⟩, by dsimp only; omega, fun _ h => ?_⟩
      rw [h] at hq; cases hq
    · rw [if_neg hv]
      have hq : c.n ∉ b.q := fun h => hv (hb.sub _ h)
      refine ⟨⟨?_, ?_, ?_, ?_, ?_, ?_⟩, ?_, ?_⟩
      · intro n hn
        rcases List.mem_append.1 hn with hn | hn
        · exact hb.ok n hn
        · rw [List.mem_singleton] at hn; subst hn; rw [hl]; exact ⟨hp, hL⟩
      · intro n hn
        rcases List.mem_append.1 hn with hn | hn
        · exact List.mem_cons_of_mem _ (hb.sub n hn)
        · rw [List.mem_singleton] at hn; subst hn; exact List.mem_cons_self
      · intro n hn hn'
        simp only [List.mem_append, List.mem_singleton, not_or] at hn'
        rcases List.mem_cons.1 hn with h | h
        · exact absurd h hn'.2
        · exact hb.vis n h hn'.1
      · refine List.pairwise_append.2 ⟨hb.sorted, by simp, ?_⟩
        intro a ha b' hb'
        rw [List.mem_singleton] at hb'; subst hb'
        rw [hl]; exact (hb.two a ha).1
      · intro n hn
        rcases List.mem_append.1 hn with hn | hn
        · exact hb.two n hn
        · rw [List.mem_singleton] at hn; subst hn; omega
      · intro m h1 h2 n hn
        rcases List.mem_append.1 hn with hn | hn
        · exact hb.memo m h1 h2 n hn
        · rw [List.mem_singleton] at hn; subst hn; exact hmemo m h1 h2
      · simp [qwork, hl]
      · intro _ h; simp at h

/-- Loop invariant of the breadth-first search. -/
structure BInv (env : Env W) (s : St W) (root : Option Nat) (index : Nat) (b : Bfs R) : Prop where
  ok : ∀ n ∈ b.q, VPtr env s (qlv s.vt.mem n) n ∧ index < qlv s.vt.mem n
  sub : ∀ n ∈ b.q, n ∈ b.visited
  vis : ∀ n ∈ b.visited, n ∉ b.q → ∀ x ∈ b.q, qlv s.vt.mem x ≤ qlv s.vt.mem n
  sorted : b.q.Pairwise fun x y => qlv s.vt.mem y ≤ qlv s.vt.mem x
  two : ∀ x ∈ b.q, ∀ y ∈ b.q, qlv s.vt.mem x ≤ qlv s.vt.mem y + 1
  memo : ∀ m : Memo R, MemoOk env s m → m root ≠ none → ∀ n ∈ b.q, m n ≠ none
  ne : b.q ≠ []

theorem bfsLoop_ok {s : St W} (hi : Inv env s) {root : Option Nat} {index : Nat} :
    ∀ (f : Nat) (b : Bfs R), BInv env s root index b → qwork s.vt.mem b.q ≤ f →
    ∃ b', Fl.bfsLoop s.vt.mem index f b = .ok b' ∧ BInv env s root index b' := by
  intro f
  induction f with
  | zero =>
    intro b hb hw
    cases hq : b.q with
    | nil => exact absurd hq hb.ne
    | cons n qs =>
      have hn := hb.ok n (by rw [hq]; exact List.mem_cons_self)
      rw [hq] at hw
      simp only [qwork, List.map_cons, List.sum_cons] at hw
      have : 2 ^ 1 ≤ 2 ^ qlv s.vt.mem n := Nat.pow_le_pow_right (by omega) (by omega)
      omega
  | succ f ih =>
    intro b hb hw
    cases hq : b.q with
    | nil => exact absurd hq hb.ne
    | cons n qs =>
      have hmem : n ∈ b.q := by rw [hq]; exact List.mem_cons_self
      have hn := hb.ok n hmem
      obtain ⟨L, hL⟩ : ∃ L, qlv s.vt.mem n = L + 1 := ⟨qlv s.vt.mem n - 1, by omega⟩
      have hn1 := hn.1
      rw [hL] at hn1
      obtain ⟨p, nd, rfl, hr, hv⟩ := hn1.node
      have hsorted := hb.sorted
      rw [hq] at hsorted
      rw [List.pairwise_cons] at hsorted
      unfold Fl.bfsLoop
      rw [hq]
      dsimp only
      rw [hr.1]
      dsimp only
      by_cases hvi : nd.v = (index : Int)
      · rw [if_pos hvi]
        exact ⟨b, rfl, hb⟩
      · rw [if_neg hvi]
        have hLi : index < L := by omega
        have hqs : ∀ x ∈ qs, x ∈ b.q := fun x hx => by rw [hq]; exact List.mem_cons_of_mem _ hx
        have hmid : Mid env s root index L { b with q := qs } := by
          refine ⟨fun x hx => hb.ok x (hqs x hx), fun x hx => hb.sub x (hqs x hx), ?_, hsorted.2, ?_,
            fun m h1 h2 x hx => hb.memo m h1 h2 x (hqs x hx)⟩
          · intro x hx hx'
            by_cases hxp : x = some p
            · subst hxp; omega
            · have : x ∉ b.q := by
                rw [hq]; exact fun h => (List.mem_cons.1 h).elim hxp hx'
              have := hb.vis x hx this _ hmem
              omega
          · intro x hx
            have h1 := hsorted.1 x hx
            have h2 := hb.two _ hmem _ (hqs x hx)
            omega
        have hmemo : ∀ m : Memo R, MemoOk env s m → m root ≠ none → ∀ bb, m (nd.child bb).n ≠ none :=
          fun m h1 h2 bb => h1.child hr (hb.memo m h1 h2 _ hmem) bb
        obtain ⟨a1, a3, a4⟩ := bfsChild_ok hmid (hi.vchild hr false hv) hLi (b.pm (some p))
          (fun m h1 h2 => hmemo m h1 h2 false)
        obtain ⟨c1, c3, c4⟩ := bfsChild_ok a1 (hi.vchild hr true hv) hLi (b.pm (some p))
          (fun m h1 h2 => hmemo m h1 h2 true)
        simp only [VNode.child, Bool.false_eq_true, if_false, if_true] at a1 a3 a4 c1 c3 c4
        generalize hb2 : Fl.bfsChild nd.c1 (b.pm (some p)) (Fl.bfsChild nd.c0 (b.pm (some p)) { b with q := qs }) = b2 at *
        apply ih b2
        · refine ⟨c1.ok, c1.sub, ?_, c1.sorted, ?_, c1.memo, ?_⟩
          · intro x hx hx' y hy
            have h1 := c1.vis x hx hx'
            have h2 := (c1.two y hy).2
            omega
          · intro x hx y hy
            have h1 := (c1.two x hx).2
            have h2 := (c1.two y hy).1
            omega
          · apply c4
            obtain ⟨bb, hb1, _⟩ := hi.un p nd hr
            cases bb
            · left; apply a4; right
              have hb1 : nd.c0.w = WOps.one := hb1
              rw [hb1]; exact az_one
            · right
              have hb1 : nd.c1.w = WOps.one := hb1
              rw [hb1]; exact az_one
        · rw [hq] at hw
          have hw' : qwork s.vt.mem (some p :: qs) = (2 ^ (L + 1) - 1) + qwork s.vt.mem qs := by
            simp only [qwork, List.map_cons, List.sum_cons, hL]
          rw [hw'] at hw
          have : 2 ^ (L + 1) = 2 ^ L + 2 ^ L := by rw [pow_succ]; omega
          have := Nat.two_pow_pos L
          omega

theorem bfsSum_ok {s : St W} (hi : Inv env s) {m : Memo R} (hm : MemoOk env s m) {pm : Option Nat → R} :
    ∀ (q : List (Option Nat)) (acc : R × R), (∀ n ∈ q, VPtr env s (qlv s.vt.mem n) n ∧ 0 < qlv s.vt.mem n ∧ m n ≠ none) →
    ∃ r, Fl.bfsSum s.vt.mem m pm q acc = .ok r := by
  intro q
  induction q with
  | nil => intro acc _; exact ⟨acc, rfl⟩
  | cons n qs ih =>
    intro acc h
    obtain ⟨h1, h2, h3⟩ := h n List.mem_cons_self
    obtain ⟨L, hL⟩ : ∃ L, qlv s.vt.mem n = L + 1 := ⟨qlv s.vt.mem n - 1, by omega⟩
    rw [hL] at h1
    obtain ⟨p, nd, rfl, hr, hv⟩ := h1.node
    obtain ⟨x0, x1, g1, g2, g3, g4⟩ := hm.kids hr h3
    unfold Fl.bfsSum
    simp only [hr.1, g1, g2]
    exact ih _ fun n hn => h n (List.mem_cons_of_mem _ hn)

theorem detProbs_ok {s : St W} (hi : Inv env s) {m : Memo R} (hm : MemoOk env s m) {k index : Nat}
    {e : Edge W} (he : VLv env s k e) (hn : e.n ≠ none) (hk : index < k) :
    ∃ x y m', Fl.detProbs s e index m = .ok (x, y, m') ∧ MemoOk env s m' := by
  have hp : VPtr env s k e.n := he.resolve_right fun h => hn h.2
  have hl := qlv_eq hp
  obtain ⟨_, hk'⟩ := he.lt hi hn
  obtain ⟨m', h1, h2, h3⟩ := ensureProbs_ok hi m hk' he hm
  have hw : qwork s.vt.mem [e.n] ≤ 2 ^ (NQUBITS + 1) := by
    simp only [qwork, List.map_cons, List.map_nil, List.sum_cons, List.sum_nil, hl]
    have : 2 ^ k ≤ 2 ^ (NQUBITS + 1) := Nat.pow_le_pow_right (by omega) (by omega)
    exact le_trans (Nat.sub_le _ _) this
  obtain ⟨b, h4, h5⟩ := bfsLoop_ok (R := R) hi (root := e.n) (index := index) (2 ^ (NQUBITS + 1))
    ⟨upd (fun _ => ROps.zero W) e.n (ROps.mag2 e.w), [e.n], [e.n]⟩
    ⟨fun n hn => by
        have hn := List.mem_singleton.1 hn
        subst hn; rw [hl]; exact ⟨hp, hk⟩,
      fun n hn => hn, fun n h h' => (h' h).elim, by simp,
      fun x hx y hy => by
        have hx := List.mem_singleton.1 hx
        have hy := List.mem_singleton.1 hy
        subst hx; rw [hy]; omega,
      fun m _ h n hn => by rw [List.mem_singleton.1 hn]; exact h, by simp⟩ hw
  obtain ⟨r, h6⟩ := bfsSum_ok hi h2 (pm := b.pm) b.q (ROps.zero W, ROps.zero W)
    (fun n hn => ⟨(h5.ok n hn).1, by have := (h5.ok n hn).2; omega, h5.memo m' h2 h3 n hn⟩)
  obtain ⟨x, y⟩ := r
  refine ⟨x, y, m', ?_, h2⟩
  unfold Fl.detProbs
  rw [h4]
  dsimp only
  rw [h1]
  dsimp only
  rw [h6]

theorem measureOne_ok {s : St W} (hi : Inv env s) {m : Memo R} (hm : MemoOk env s m) {k index : Nat} (eps : R)
    {e : Edge W} (he : VLv env s k e) (hn : e.n ≠ none) (hk : index < k) :
    ∃ x m', Fl.measureOne s e index eps m = .ok (x, m') ∧ MemoOk env s m' := by
  obtain ⟨x, y, m', h1, h2⟩ := detProbs_ok hi hm he hn hk
  unfold Fl.measureOne
  simp only [h1]
  split
  · exact ⟨_, m', rfl, h2⟩
  · exact ⟨_, m', rfl, h2⟩

theorem measureOneCollapsing_sat {s : St W} {m : Memo R} (hi : Inv env s) (hm : MemoOk env s m) (mt : Bool) (eps draw : R)
    {k index : Nat} {e : Edge W} (he : VLv env s k e) (hn : e.n ≠ none) (hk : index < k) :
    Sat (world env) (Fl.measureOneCollapsing env mt e index eps draw m) s
      (fun s' r => MemoOk env s' r.2 ∧ ∀ b x, r.1 = some (b, x) → VLv env s' k x) := by
  unfold Fl.measureOneCollapsing
  have hp : VPtr env s k e.n := he.resolve_right fun h => hn h.2
  have hkn := (he.lt hi hn).2
  refine Sat.bind (Q := fun s' r => r.2 = (k : Int) - 1 ∧ MemoOk env s' r.1.2.2) (peekS_sat fun s1 hi1 he1 => ?_) ?_
  · obtain ⟨x, y, m', h1, h2⟩ := detProbs_ok hi1 (hm.ext he1) (he.ext he1) hn hk
    refine ⟨((x, y, m'), (k : Int) - 1), ?_, fun s' _ he' => ⟨rfl, h2.ext he'⟩⟩
    rw [h1]
    dsimp only
    rw [(hp.ext he1).evar]
  · rintro s1 ⟨⟨pz, po, m'⟩, v⟩ hi1 he1 ⟨h1, h2⟩
    dsimp only at h1 h2 ⊢
    have hv : (v + 1).toNat = k := by omega
    split
    · exact Sat.pure fun s' _ he' => ⟨h2.ext he', fun b x h => by cases h⟩
    · rw [hv]
      refine Sat.bind (makeGate_sat _ [] hk hkn) fun s2 g hi2 he2 hg => ?_
      refine Sat.bind (mvMul_sat mt hg ((he.ext he1).ext he2)) fun s3 x hi3 he3 hx => ?_
      refine Sat.pure fun s4 hi4 he4 => ⟨h2.ext (he2.trans (he3.trans he4)), fun b y h => ?_⟩
      cases h
      exact (hx.ext he4).mulR _

end Safe
end QDD
