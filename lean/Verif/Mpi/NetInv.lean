import Verif.Mpi.Net
import Mathlib.Tactic.SplitIfs
import Mathlib.Tactic.ByContra
import Mathlib.Algebra.BigOperators.Intervals
import Mathlib.Data.List.Nodup
/-!
# Invariant of the distributed product
-/

set_option linter.unusedSectionVars false
set_option linter.unusedVariables false
set_option linter.unusedSimpArgs false

namespace QDD.Mpi
open Prog ExactW Spec

/-! ## Ring arithmetic -/

theorem modsub {S u a b i : Nat} (hb : b < S) (hi : i ≤ S) (hu : 1 ≤ u) :
    (S * a + b + S * u - i) % S = if i ≤ b then b - i else S + b - i := by
  obtain ⟨v, rfl⟩ : ∃ v, u = v + 1 := ⟨u - 1, by omega⟩
  split
  · next h =>
    rw [show S * a + b + S * (v + 1) - i = S * (a + (v + 1)) + (b - i) by rw [Nat.mul_add S a (v + 1)]; omega, Nat.mul_add_mod]
    exact Nat.mod_eq_of_lt (by omega)
  · next h =>
    rw [show S * a + b + S * (v + 1) - i = S * (a + v) + (S + b - i) by
      rw [Nat.mul_add, Nat.mul_add, Nat.mul_one]; omega, Nat.mul_add_mod]
    exact Nat.mod_eq_of_lt (by omega)

section ring
variable {W : Type} [WOps W] {J : Job W} {c : Call W}

/-- The small world divides the world. -/
theorem small_dvd (hg : J.g ≤ J.n) (hl : c.largest < J.n) (hloc : c.isLocal J = false) :
    2 ≤ c.small J ∧ ∃ u, 1 ≤ u ∧ ws J = c.small J * u := by
  have h1 : ¬ c.largest < J.n - J.g := by simpa [Call.isLocal] using hloc
  refine ⟨?_, 2 ^ (J.n - 1 - c.largest), Nat.one_le_two_pow, ?_⟩
  · unfold Call.small
    calc 2 = 2 ^ 1 := rfl
      _ ≤ _ := Nat.pow_le_pow_right (by omega) (by omega)
  · unfold ws Call.small
    rw [← Nat.pow_add]; congr 1; omega

variable {S u : Nat} (hS : c.small J = S) (hu : 1 ≤ u) (hw : ws J = S * u)
include hS hu hw

theorem offset_eq {a b : Nat} (hb : b < S) : c.offset J (S * a + b) = S * a := by
  unfold Call.offset
  rw [hS, hw, show S * a + b + S * u = S * (a + u) + b by rw [Nat.mul_add]; omega, Nat.mul_add_mod, Nat.mod_eq_of_lt hb]
  omega

theorem nb_eq {a b i : Nat} (hb : b < S) (hi : i ≤ S) :
    c.nb J (S * a + b) i = S * a + if i ≤ b then b - i else S + b - i := by
  unfold Call.nb
  rw [offset_eq hS hu hw hb, hS, hw, modsub hb hi hu, Nat.add_comm]

theorem left_eq {a b : Nat} (hb : b < S) : c.left J (S * a + b) = c.nb J (S * a + b) 1 := rfl

theorem right_eq {a b : Nat} (hb : b < S) :
    c.right J (S * a + b) = S * a + if b + 1 < S then b + 1 else 0 := by
  unfold Call.right
  rw [offset_eq hS hu hw hb, hS, hw, show S * a + b + 1 + S * u = S * (a + u) + (b + 1) by rw [Nat.mul_add]; omega,
    Nat.mul_add_mod, Nat.add_comm]
  congr 1
  split
  · next h => exact Nat.mod_eq_of_lt h
  · next h =>
    have : b + 1 = S := by omega
    rw [this, Nat.mod_self]

theorem nb_lt {r i : Nat} (hr : r < ws J) (hi : i ≤ S) (hSp : 0 < S) : c.nb J r i < ws J := by
  obtain ⟨a, b, rfl, hb⟩ : ∃ a b, r = S * a + b ∧ b < S := ⟨r / S, r % S, (Nat.div_add_mod r S).symm, Nat.mod_lt _ hSp⟩
  rw [nb_eq hS hu hw hb hi, hw]
  have ha : a < u := by
    by_contra h
    have : S * u ≤ S * a := Nat.mul_le_mul_left _ (by omega)
    omega
  have : S * (a + 1) ≤ S * u := Nat.mul_le_mul_left _ ha
  rw [Nat.mul_add] at this
  split_ifs <;> omega

theorem right_lt {r : Nat} (hr : r < ws J) (hSp : 0 < S) : c.right J r < ws J := by
  obtain ⟨a, b, rfl, hb⟩ : ∃ a b, r = S * a + b ∧ b < S := ⟨r / S, r % S, (Nat.div_add_mod r S).symm, Nat.mod_lt _ hSp⟩
  rw [right_eq hS hu hw hb, hw]
  have ha : a < u := by
    by_contra h
    have : S * u ≤ S * a := Nat.mul_le_mul_left _ (by omega)
    omega
  have : S * (a + 1) ≤ S * u := Nat.mul_le_mul_left _ ha
  rw [Nat.mul_add] at this
  split_ifs <;> omega

theorem nb_zero {r : Nat} (hSp : 0 < S) : c.nb J r 0 = r := by
  obtain ⟨a, b, rfl, hb⟩ : ∃ a b, r = S * a + b ∧ b < S := ⟨r / S, r % S, (Nat.div_add_mod r S).symm, Nat.mod_lt _ hSp⟩
  rw [nb_eq hS hu hw hb (Nat.zero_le _)]
  simp

theorem right_left {r : Nat} (hS2 : 2 ≤ S) : c.right J (c.left J r) = r := by
  obtain ⟨a, b, rfl, hb⟩ : ∃ a b, r = S * a + b ∧ b < S := ⟨r / S, r % S, (Nat.div_add_mod r S).symm, Nat.mod_lt _ (by omega)⟩
  rw [left_eq hS hu hw hb, nb_eq hS hu hw hb (by omega)]
  split
  · next h => rw [right_eq hS hu hw (by omega), if_pos (by omega)]; omega
  · next h => rw [right_eq hS hu hw (by omega), if_neg (by omega)]; omega

theorem left_right {r : Nat} (hS2 : 2 ≤ S) : c.left J (c.right J r) = r := by
  obtain ⟨a, b, rfl, hb⟩ : ∃ a b, r = S * a + b ∧ b < S := ⟨r / S, r % S, (Nat.div_add_mod r S).symm, Nat.mod_lt _ (by omega)⟩
  rw [right_eq hS hu hw hb]
  split
  · next h => rw [left_eq hS hu hw (by omega), nb_eq hS hu hw (by omega) (by omega), if_pos (by omega)]; omega
  · next h => rw [left_eq hS hu hw (by omega), nb_eq hS hu hw (by omega) (by omega), if_neg (by omega)]; omega

theorem nb_left {r i : Nat} (hS2 : 2 ≤ S) (hi : i + 1 < S) : c.nb J (c.left J r) i = c.nb J r (i + 1) := by
  obtain ⟨a, b, rfl, hb⟩ : ∃ a b, r = S * a + b ∧ b < S := ⟨r / S, r % S, (Nat.div_add_mod r S).symm, Nat.mod_lt _ (by omega)⟩
  rw [left_eq hS hu hw hb, nb_eq hS hu hw hb (by omega), nb_eq hS hu hw hb (by omega)]
  split
  · next h =>
    rw [nb_eq hS hu hw (by omega) (by omega)]
    split_ifs <;> omega
  · next h =>
    rw [nb_eq hS hu hw (by omega) (by omega)]
    split_ifs <;> omega

end ring

/-! ## Intervals -/

/-- The numbers in `[a, b)` satisfying `p`. -/
def Lf (p : Nat → Bool) (a b : Nat) : List Nat := (List.range' a (b - a)).filter p

theorem Lf_top_no {p : Nat → Bool} {a b : Nat} (h : p b = false) : Lf p a (b + 1) = Lf p a b := by
  unfold Lf
  by_cases hab : a ≤ b
  · rw [show b + 1 - a = (b - a) + 1 by omega, List.range'_concat, List.filter_append]
    rw [show a + 1 * (b - a) = b by omega]
    simp [h]
  · rw [show b + 1 - a = 0 by omega, show b - a = 0 by omega]

theorem Lf_top_yes {p : Nat → Bool} {a b : Nat} (hab : a ≤ b) (h : p b = true) : Lf p a (b + 1) = Lf p a b ++ [b] := by
  unfold Lf
  rw [show b + 1 - a = (b - a) + 1 by omega, List.range'_concat, List.filter_append]
  rw [show a + 1 * (b - a) = b by omega]
  simp [h]

theorem Lf_bot_yes {p : Nat → Bool} {a b : Nat} (hab : a < b) (h : p a = true) : Lf p a b = a :: Lf p (a + 1) b := by
  unfold Lf
  rw [show b - a = (b - (a + 1)) + 1 by omega, List.range'_succ, List.filter_cons, if_pos h]

theorem Lf_bot_no {p : Nat → Bool} {a b : Nat} (h : p a = false) : Lf p (a + 1) b = Lf p a b := by
  unfold Lf
  by_cases hab : a < b
  · rw [show b - a = (b - (a + 1)) + 1 by omega, List.range'_succ, List.filter_cons, if_neg (by simp [h])]
  · rw [show b - a = 0 by omega, show b - (a + 1) = 0 by omega]; simp

theorem Lf_nil {p : Nat → Bool} {a b : Nat} (h : b ≤ a) : Lf p a b = [] := by
  unfold Lf
  rw [show b - a = 0 by omega]; simp

/-! ## Specification of what the ranks hold -/

section spec
variable {K : Type} [Field K] [LinearOrder K] [IsStrictOrderedRing K] (J : Job (C K)) (x0 : Net (C K))

/-- What `getMPIGate` returns for block `(r, col)` of call `t`, as a matrix. -/
def B (t r col : Nat) : Nat → Nat → C K :=
  match getMPIGate (x0.rk r).st.mt.mem ((J.call t).lhs r) r col (ws J) with
  | .ok e => mden (x0.rk r).st.mt.mem (loc J) e
  | .error _ => fun _ _ => 0

/-- The columns rank `r` has added up before round `i`. -/
def Call.cols (c : Call (C K)) (r i : Nat) : List Nat :=
  if c.bcast then r :: (List.range i).filter (· ≠ r) else (List.range i).map (c.nb J r)

/-- Block times slice. -/
def term (Xt : Nat → Nat → C K) (t r col x : Nat) : C K := bsum (loc J) fun j => B J x0 t r col x j * Xt col j

/-- The partial sum of rank `r` before round `i`. -/
def acc (Xt : Nat → Nat → C K) (t r i x : Nat) : C K := (((J.call t).cols J r i).map fun c => term J x0 Xt t r c x).sum

/-- The slice of rank `r` after `t` calls. -/
def X : Nat → Nat → Nat → C K
  | 0, r, x => vden (x0.rk r).st.vt.mem (loc J) (x0.rk r).cur x
  | t + 1, r, x => acc J x0 (X t) t r ((J.call t).last J) x

/-- What rank `s` sends in round `i` of call `t`. -/
def Y (t i s : Nat) : Nat → C K := if (J.call t).bcast then X J x0 t s else X J x0 t ((J.call t).nb J s (i - 1))

/-- A message that any process can rebuild as the vector `f`. -/
def MsgOk (m : Msg (C K)) (f : Nat → C K) : Prop :=
  ∀ (env : Env (C K)) (s : St (C K)) (tid : Nat), Inv env s → ∃ n' vt', fromVec env.hv tid false m.tab s.vt = .ok (n', vt') ∧
    Inv env { s with vt := vt' } ∧ SExt env s { s with vt := vt' } ∧ VRep env { s with vt := vt' } (loc J) ⟨m.w, n'⟩ f

/-- The ranks before the first call. -/
structure Start : Prop where
  gn : J.g ≤ J.n
  largest : ∀ t < J.len, (J.call t).largest < J.n
  t0 : ∀ r < ws J, (x0.rk r).t = 0
  ph : ∀ r < ws J, (x0.rk r).ph = .enter
  inv : ∀ r < ws J, Inv (J.env r) (x0.rk r).st
  cur : ∀ r < ws J, VOk (J.env r) (x0.rk r).st (loc J) (x0.rk r).cur
  lhs : ∀ r < ws J, ∀ t < J.len, MOk (J.env r) (x0.rk r).st J.n ((J.call t).lhs r).n
  q : ∀ s < ws J, ∀ d < ws J, ∀ tag, x0.q s d tag = []

/-- Call `t` makes rank `s` send to `d` with this tag. -/
def live (s d : Nat) (tag : Bool × Nat) (t : Nat) : Bool :=
  decide (t < J.len ∧ (J.call t).bcast = tag.1 ∧ (J.call t).first ≤ tag.2 ∧ tag.2 < (J.call t).last J ∧ d ∈ (J.call t).dests J tag.2 s)

variable {W : Type} [WOps W]
/-- Calls whose round `i` the rank has sent in. -/
def sc (R : Rank W) (i : Nat) : Nat := R.t + if 3 * i + 2 ≤ R.ph.num then 1 else 0
/-- Calls whose round `i` the rank has received in. -/
def rc (R : Rank W) (i : Nat) : Nat := R.t + if 3 * i + 3 ≤ R.ph.num then 1 else 0

/-- The state of one rank. -/
structure RInv (r : Nat) (R : Rank (C K)) : Prop where
  inv : Inv (J.env r) R.st
  ext : SExt (J.env r) (x0.rk r).st R.st
  cur : VRep (J.env r) R.st (loc J) R.cur (X J x0 R.t r)
  le : R.t ≤ J.len
  ph : match R.ph with
    | .enter => True
    | .top i | .sent i => R.t < J.len ∧ (J.call R.t).first ≤ i ∧ i < (J.call R.t).last J ∧
        VRep (J.env r) R.st (loc J) R.res (acc J x0 (X J x0 R.t) R.t r i) ∧ MsgOk J R.out (Y J x0 R.t i r)
    | .got i => R.t < J.len ∧ (J.call R.t).first ≤ i ∧ i < (J.call R.t).last J ∧
        VRep (J.env r) R.st (loc J) R.res (acc J x0 (X J x0 R.t) R.t r (i + 1)) ∧
        MsgOk J (if (J.call R.t).bcast then R.out else R.inb) (Y J x0 R.t (i + 1) r)

structure NInv (x : Net (C K)) : Prop where
  rank : ∀ r < ws J, RInv J x0 r (x.rk r)
  chan : ∀ s < ws J, ∀ d < ws J, ∀ tag : Bool × Nat, List.Forall₂ (fun t m => MsgOk J m (Y J x0 t tag.2 s))
    (Lf (live J s d tag) (rc (x.rk d) tag.2) (sc (x.rk s) tag.2)) (x.q s d tag)
  caus : ∀ s < ws J, ∀ d < ws J, ∀ (tag : Bool × Nat) t, live J s d tag t = true → t < rc (x.rk d) tag.2 → t < sc (x.rk s) tag.2

end spec

section proofs
variable {K : Type} [Field K] [LinearOrder K] [IsStrictOrderedRing K] {J : Job (C K)} {x0 : Net (C K)}

/-- `getMPIGate` reads nodes that never change. -/
theorem getMPIGate_ext {env : Env (C K)} {s s' : St (C K)} (hi : Inv env s) (he : SExt env s s') :
    ∀ {g n row col : Nat} {e : Edge (C K)}, g ≤ n → MOk env s n e.n → row < 2 ^ g → col < 2 ^ g →
    getMPIGate s'.mt.mem e row col (2 ^ g) = getMPIGate s.mt.mem e row col (2 ^ g) := by
  intro g
  induction g with
  | zero =>
    intro n row col e hg hm hr hc
    unfold getMPIGate
    cases e.n <;> simp
  | succ g ih =>
    intro n row col e hg hm hr hc
    have hpos := Nat.two_pow_pos g
    rcases hm with hn | ⟨p, nd, hn, h2, h3⟩
    · unfold getMPIGate; rw [hn]
    · obtain ⟨v, hv, _⟩ := hi.mlevel h2
      have hc' := (hi.mn p nd h2).ok' (decide (2 ^ g ≤ row)) (decide (2 ^ g ≤ col)) hv
      have := ih (n := n - 1) (row := row % 2 ^ g) (col := col % 2 ^ g)
        (e := ⟨WOps.mul (nd.child (decide (2 ^ g ≤ row)) (decide (2 ^ g ≤ col))).w e.w,
          (nd.child (decide (2 ^ g ≤ row)) (decide (2 ^ g ≤ col))).n⟩) (by omega)
        (hc'.mono (by omega)) (Nat.mod_lt _ hpos) (Nat.mod_lt _ hpos)
      unfold getMPIGate
      have hhalf : 2 ^ (g + 1) / 2 = 2 ^ g := by rw [Nat.pow_succ]; omega
      have h1 : ¬ 2 ^ (g + 1) ≤ 1 := by rw [Nat.pow_succ]; omega
      simp only [hn, h1, dif_neg, not_false_iff, Props.MpiG.pow2_and, ne_eq, not_true, if_false, hr, hc, and_self, h2.1,
        (he.2 _ _ h2).1, hhalf, Props.MpiG.mpiChild_eq]
      exact this

theorem gateP_sat (h0 : Start J x0) {t r col : Nat} (hr : r < ws J) (hc : col < ws J) (ht : t < J.len) {s : St (C K)}
    (he : SExt (J.env r) (x0.rk r).st s) :
    Sat (world (J.env r)) (gateP J (J.call t) r col) s (fun s' e => MOk (J.env r) s' (loc J) e.n ∧
      ∀ i j, mden s'.mt.mem (loc J) e i j = B J x0 t r col i j) := by
  refine Sat.atom fun s1 tid hi1 he1 => ?_
  have he1' : SExt (J.env r) (x0.rk r).st s1 := he.trans _ he1
  have hl := h0.lhs r hr t ht
  obtain ⟨e', h1, h2, _⟩ := Props.MpiG.getMPIGate_zero (h0.inv r hr) h0.gn hl hr hc
  have h3 : getMPIGate s1.mt.mem ((J.call t).lhs r) r col (ws J) = .ok e' := by
    have := getMPIGate_ext (h0.inv r hr) he1' h0.gn hl (row := r) (col := col) hr hc
    exact this.trans h1
  refine ⟨e', s1, by simp only [h3], hi1, SExt.refl _ _, fun s2 hi2 he2 => ⟨h2.ext (he1'.trans _ he2), fun i j => ?_⟩⟩
  have h1' : getMPIGate (x0.rk r).st.mt.mem ((J.call t).lhs r) r col (ws J) = .ok e' := h1
  rw [B, h1']
  exact mden_ext (h0.inv r hr) (he1'.trans _ he2) h2 i j

theorem serP_sat {env : Env (C K)} {s : St (C K)} {e : Edge (C K)} {f : Nat → C K} (hi : Inv env s)
    (he : VRep env s (loc J) e f) : Sat (world env) (serP e) s (fun _ m => MsgOk J m f) := by
  refine Sat.atom fun s1 tid hi1 he1 => ?_
  have he' := he.ext hi he1
  obtain ⟨file, hf, _⟩ := transfer_spec hi1 hi1 he'.1 tid
  refine ⟨⟨e.w, file⟩, s1, by simp only [hf], hi1, SExt.refl _ _, fun _ _ _ env' s' tid' hi' => ?_⟩
  obtain ⟨file', hf', n', vt', a1, a2, a3, a4⟩ := transfer_spec hi1 hi' he'.1 tid'
  rw [hf] at hf'
  cases hf'
  refine ⟨n', vt', a1, a2, a3, ?_, fun i => ?_⟩
  · exact Iso.vok (s := s1) (s' := { s' with vt := vt' }) (a := e) (b := ⟨e.w, n'⟩) a4 rfl he'.1
  · rw [← he'.2 i]
    unfold vden
    rw [a4.vptr i]

theorem enterP_sat (h0 : Start J x0) {t r : Nat} (hr : r < ws J) (ht : t < J.len) {s : St (C K)} (hi : Inv (J.env r) s)
    (he : SExt (J.env r) (x0.rk r).st s) {cur : Edge (C K)} {f : Nat → C K} (hc : VRep (J.env r) s (loc J) cur f)
    (old : Msg (C K)) :
    Sat (world (J.env r)) (enterP J (J.call t) r cur old) s (fun s' a =>
      VRep (J.env r) s' (loc J) a.1 (fun x => bsum (loc J) fun j => B J x0 t r r x j * f j) ∧
      ((J.call t).isLocal J = false → MsgOk J a.2 f)) := by
  unfold enterP
  refine Sat.bind (gateP_sat h0 hr hr ht he) fun s1 gate hi1 he1 hg => ?_
  have hc1 := hc.ext hi he1
  refine Sat.bind (mvMul_sat J.mt hi1 hg.1 hc1.1) fun s2 e hi2 he2 hres => ?_
  have hfun : mvden s1 (loc J) gate cur = fun x => bsum (loc J) fun j => B J x0 t r r x j * f j := by
    funext x
    exact bsum_congr fun j _ => by rw [hg.2, hc1.2]
  rw [hfun] at hres
  split
  · next h => exact Sat.pure fun s3 hi3 he3 => ⟨hres.ext hi2 he3, fun h' => by simp [h] at h'⟩
  · next h =>
    refine Sat.bind (serP_sat hi2 (hc1.ext hi1 he2)) fun s3 m hi3 he3 hm => ?_
    exact Sat.pure fun s4 hi4 he4 => ⟨(hres.ext hi2 he3).ext hi3 he4, fun _ => hm⟩

theorem recvP_sat (h0 : Start J x0) (fk : Nat → Bool) {t r i : Nat} (hr : r < ws J) (ht : t < J.len)
    (hcol : (J.call t).col J i r < ws J) {s : St (C K)} (hi : Inv (J.env r) s)
    (he : SExt (J.env r) (x0.rk r).st s) {res : Edge (C K)} {f f' : Nat → C K} (hres : VRep (J.env r) s (loc J) res f)
    {m : Msg (C K)} (hm : MsgOk J m f') :
    Sat (world (J.env r)) (recvP J fk (J.call t) r i res m) s (fun s' e =>
      VRep (J.env r) s' (loc J) e (fun x => f x + bsum (loc J) fun j => B J x0 t r ((J.call t).col J i r) x j * f' j)) := by
  unfold recvP
  refine Sat.bind (gateP_sat h0 hr hcol ht he) fun s1 gate hi1 he1 hg => ?_
  have hd : Sat (world (J.env r)) (deserP J r m) s1 (fun s' e => VRep (J.env r) s' (loc J) e f') := by
    refine Sat.atom fun s2 tid hi2 he2 => ?_
    obtain ⟨n', vt', a1, a2, a3, a4⟩ := hm (J.env r) s2 tid hi2
    exact ⟨⟨m.w, n'⟩, { s2 with vt := vt' }, by simp only [a1], a2, a3, fun s3 hi3 he3 => a4.ext a2 he3⟩
  refine Sat.bind hd fun s2 rec hi2 he2 hrec => ?_
  have hg2 : MOk (J.env r) s2 (loc J) gate.n := hg.1.ext he2
  refine Sat.bind (mvMul_sat J.mt hi2 hg2 hrec.1) fun s3 e hi3 he3 hprod => ?_
  have hfun : mvden s2 (loc J) gate rec = fun x => bsum (loc J) fun j => B J x0 t r ((J.call t).col J i r) x j * f' j := by
    funext x
    exact bsum_congr fun j _ => by rw [mden_ext hi1 he2 hg.1, hg.2, hrec.2]
  rw [hfun] at hprod
  exact vvAdd_sat fk hi3 (((hres.ext hi he1).ext hi1 he2).ext hi2 he3) hprod

theorem Sat.result {env : Env (C K)} {α : Type} {p : P (C K) α} {s s' : St (C K)} {a : α} {Q}
    (h : Sat (world env) p s Q) (hi : Inv env s) (hs : Steps p s (Prog.ret a) s') :
    Inv env s' ∧ SExt env s s' ∧ Q s' a := by
  obtain ⟨h1, h2, h3⟩ := h.steps hs hi
  exact ⟨h1, h2, h3 s' h1 (SExt.refl _ _)⟩

/-- A call with rounds is not local. -/
theorem not_local {c : Call (C K)} {i : Nat} (h : c.first ≤ i) (h' : i < c.last J) : c.isLocal J = false := by
  by_contra hl
  rw [Call.last, if_pos (by simpa using hl)] at h'
  omega

theorem src_iff (h0 : Start J x0) {t i s d : Nat} (ht : t < J.len) (hs : s < ws J) (hd : d < ws J)
    (h1 : (J.call t).first ≤ i) (h2 : i < (J.call t).last J) :
    (J.call t).src J i d = some s ↔ d ∈ (J.call t).dests J i s := by
  have hl := not_local h1 h2
  obtain ⟨hS2, u, hu, hw⟩ := small_dvd h0.gn (h0.largest t ht) hl
  unfold Call.src Call.dests
  cases hb : (J.call t).bcast
  · simp only [Bool.false_eq_true, if_false, Option.some.injEq, List.mem_singleton]
    constructor
    · rintro rfl; exact (right_left rfl hu hw hS2).symm
    · rintro rfl; exact left_right rfl hu hw hS2
  · simp only [if_true]
    by_cases hsi : s = i
    · subst hsi
      by_cases hds : d = s
      · subst hds; simp
      · simp [hds, hd]
    · simp only [hsi, if_false, List.not_mem_nil, iff_false]
      split
      · simp
      · simp only [Option.some.injEq]
        exact fun h => hsi h.symm

theorem src_lt (h0 : Start J x0) {t i s d : Nat} (ht : t < J.len) (hd : d < ws J)
    (h1 : (J.call t).first ≤ i) (h2 : i < (J.call t).last J) (hsrc : (J.call t).src J i d = some s) :
    s < ws J ∧ (J.call t).col J i d < ws J ∧ Y J x0 t i s = X J x0 t ((J.call t).col J i d) := by
  have hl := not_local h1 h2
  obtain ⟨hS2, u, hu, hw⟩ := small_dvd h0.gn (h0.largest t ht) hl
  unfold Call.last at h2
  rw [hl] at h2
  unfold Call.src at hsrc
  unfold Call.col Y
  cases hb : (J.call t).bcast
  · simp only [hb, Bool.false_eq_true, if_false, Option.some.injEq] at hsrc h2 ⊢
    unfold Call.first at h1
    simp only [hb, Bool.false_eq_true, if_false] at h1
    subst hsrc
    have := nb_lt rfl hu hw (r := d) (i := 1) hd (by omega) (by omega)
    refine ⟨this, nb_lt rfl hu hw hd (by omega) (by omega), ?_⟩
    rw [nb_left rfl hu hw hS2 (i := i - 1) (by omega), show i - 1 + 1 = i by omega]
  · simp only [hb, if_true, Bool.false_eq_true, if_false] at hsrc h2 ⊢
    split at hsrc
    · cases hsrc
    · simp only [Option.some.injEq] at hsrc
      subst hsrc
      exact ⟨h2, h2, rfl⟩

theorem nb0 (h0 : Start J x0) {t r : Nat} (ht : t < J.len) : (J.call t).nb J r 0 = r := by
  cases hl : (J.call t).isLocal J
  · obtain ⟨hS2, u, hu, hw⟩ := small_dvd h0.gn (h0.largest t ht) hl
    exact nb_zero rfl hu hw (by omega)
  · have : (J.call t).small J = 1 := by
      have hl : (J.call t).largest < J.n - J.g := by simpa [Call.isLocal] using hl
      unfold Call.small
      rw [show 1 + (J.call t).largest + J.g - J.n = 0 by omega]
      rfl
    unfold Call.nb Call.offset
    rw [this]
    simp [Nat.mod_one]

theorem cols_first (h0 : Start J x0) {t r : Nat} (ht : t < J.len) : (J.call t).cols J r (J.call t).first = [r] := by
  unfold Call.cols Call.first
  cases hb : (J.call t).bcast
  · simp only [Bool.false_eq_true, if_false, List.range_one, List.map_cons, List.map_nil, nb0 h0 ht]
  · simp

theorem cols_succ {c : Call (C K)} {r i : Nat} :
    c.cols J r (i + 1) = c.cols J r i ++ if (c.src J i r).isSome then [c.col J i r] else [] := by
  unfold Call.cols Call.src Call.col
  cases hb : c.bcast
  · simp [List.range_succ]
  · simp only [if_true, List.range_succ, List.filter_append, List.cons_append]
    by_cases h : r = i
    · subst h; simp
    · simp [h, Ne.symm h]

theorem acc_first (h0 : Start J x0) {t r : Nat} (ht : t < J.len) (Xt : Nat → Nat → C K) :
    acc J x0 Xt t r (J.call t).first = fun x => bsum (loc J) fun j => B J x0 t r r x j * Xt r j := by
  funext x
  unfold acc
  rw [cols_first h0 ht]
  simp [term]

theorem acc_succ {t r i : Nat} (Xt : Nat → Nat → C K) (h : ((J.call t).src J i r).isSome = true) :
    acc J x0 Xt t r (i + 1) = fun x => acc J x0 Xt t r i x +
      bsum (loc J) fun j => B J x0 t r ((J.call t).col J i r) x j * Xt ((J.call t).col J i r) j := by
  funext x
  unfold acc
  rw [cols_succ, h]
  simp [term]

theorem acc_root {t r i : Nat} (Xt : Nat → Nat → C K) (h : (J.call t).src J i r = none) :
    acc J x0 Xt t r (i + 1) = acc J x0 Xt t r i := by
  funext x
  unfold acc
  rw [cols_succ, h]
  simp

theorem Y_first (h0 : Start J x0) {t r : Nat} (ht : t < J.len) : Y J x0 t (J.call t).first r = X J x0 t r := by
  unfold Y Call.first
  cases hb : (J.call t).bcast
  · simp [nb0 h0 ht]
  · simp

/-- Going on to round `i`, or finishing the call. -/
theorem RInv.round {r : Nat} {R : Rank (C K)} {i : Nat} (hi : Inv (J.env r) R.st)
    (hx : SExt (J.env r) (x0.rk r).st R.st) (hc : VRep (J.env r) R.st (loc J) R.cur (X J x0 R.t r)) (ht : R.t < J.len)
    (h1 : (J.call R.t).first ≤ i) (h2 : i ≤ (J.call R.t).last J)
    (hres : VRep (J.env r) R.st (loc J) R.res (acc J x0 (X J x0 R.t) R.t r i))
    (hm : i < (J.call R.t).last J → MsgOk J R.out (Y J x0 R.t i r)) : RInv J x0 r (R.round J (J.call R.t) i) := by
  unfold Rank.round
  split
  · next h => exact ⟨hi, hx, hc, ht.le, ht, h1, h, hres, hm h⟩
  · next h =>
    have : i = (J.call R.t).last J := by omega
    subst this
    exact ⟨hi, hx, hres, ht, trivial⟩

theorem first_le_last {c : Call (C K)} (h : c.isLocal J = false → 2 ≤ c.small J) : c.first ≤ c.last J := by
  unfold Call.last
  split
  · exact le_refl _
  · next hl =>
    unfold Call.first
    split
    · exact Nat.zero_le _
    · have := h (by simpa using hl); omega

/-- A message put in is the next one, or none. -/
theorem NInv.quiet {x : Net (C K)} (hx : NInv J x0 x) {r : Nat} {R : Rank (C K)} (hR : RInv J x0 r R)
    (hsc : ∀ i, sc R i = sc (x.rk r) i ∨ (sc R i = sc (x.rk r) i + 1 ∧ ∀ b, ∀ d < ws J, live J r d (b, i) (sc (x.rk r) i) = false))
    (hrc : ∀ i, rc R i = rc (x.rk r) i ∨ (rc R i = rc (x.rk r) i + 1 ∧ ∀ b, ∀ s < ws J, live J s r (b, i) (rc (x.rk r) i) = false)) :
    NInv J x0 ⟨upd x.rk r R, x.q⟩ := by
  have hsc' : ∀ s i, sc (upd x.rk r R s) i = sc (x.rk s) i ∨
      (sc (upd x.rk r R s) i = sc (x.rk s) i + 1 ∧ ∀ b, ∀ d < ws J, live J s d (b, i) (sc (x.rk s) i) = false) := by
    intro s i
    by_cases h : s = r
    · subst h; rw [upd_same]; exact hsc i
    · rw [upd_ne _ _ _ h]; exact .inl rfl
  have hrc' : ∀ d i, rc (upd x.rk r R d) i = rc (x.rk d) i ∨
      (rc (upd x.rk r R d) i = rc (x.rk d) i + 1 ∧ ∀ b, ∀ s < ws J, live J s d (b, i) (rc (x.rk d) i) = false) := by
    intro d i
    by_cases h : d = r
    · subst h; rw [upd_same]; exact hrc i
    · rw [upd_ne _ _ _ h]; exact .inl rfl
  refine ⟨fun r' h' => ?_, fun s hs d hd tag => ?_, fun s hs d hd tag t hl ht => ?_⟩
  · show RInv J x0 r' (upd x.rk r R r')
    by_cases h : r' = r
    · subst h; rw [upd_same]; exact hR
    · rw [upd_ne _ _ _ h]; exact hx.rank r' h'
  · have := hx.chan s hs d hd tag
    show List.Forall₂ _ (Lf _ (rc (upd x.rk r R d) tag.2) (sc (upd x.rk r R s) tag.2)) _
    rcases hsc' s tag.2 with e | ⟨e, e'⟩ <;> rcases hrc' d tag.2 with f | ⟨f, f'⟩ <;> rw [e, f]
    · exact this
    · rw [Lf_bot_no (f' tag.1 s hs)]; exact this
    · rw [Lf_top_no (e' tag.1 d hd)]; exact this
    · rw [Lf_bot_no (f' tag.1 s hs), Lf_top_no (e' tag.1 d hd)]; exact this
  · have ht : t < rc (upd x.rk r R d) tag.2 := ht
    show t < sc (upd x.rk r R s) tag.2
    have h1 : t < rc (x.rk d) tag.2 := by
      rcases hrc' d tag.2 with f | ⟨f, f'⟩
      · rwa [f] at ht
      · rw [f] at ht
        rcases Nat.lt_succ_iff_lt_or_eq.1 ht with h | h
        · exact h
        · subst h; rw [f' tag.1 s hs] at hl; cases hl
    have := hx.caus s hs d hd tag t hl h1
    rcases hsc' s tag.2 with e | ⟨e, _⟩ <;> omega

theorem bump_congr {P Q : Prop} [Decidable P] [Decidable Q] (h : P ↔ Q) :
    (if P then 1 else 0 : Nat) = if Q then 1 else 0 := by
  by_cases hp : P
  · rw [if_pos hp, if_pos (h.1 hp)]
  · rw [if_neg hp, if_neg (fun hq => hp (h.2 hq))]

theorem live_false {s d : Nat} {tag : Bool × Nat} {t : Nat}
    (h : t < J.len → (J.call t).bcast = tag.1 → (J.call t).first ≤ tag.2 → tag.2 < (J.call t).last J →
      d ∈ (J.call t).dests J tag.2 s → False) : live J s d tag t = false := by
  unfold live
  rw [decide_eq_false_iff_not]
  rintro ⟨a, b, c, e, f⟩
  exact h a b c e f

theorem NInv.enter (h0 : Start J x0) {x : Net (C K)} (hx : NInv J x0 x) {r : Nat} {e m s'} (hr : r < ws J)
    (ht : (x.rk r).t < J.len) (hp : (x.rk r).ph = .enter)
    (hs : Steps (enterP J (J.call (x.rk r).t) r (x.rk r).cur (x.rk r).out) (x.rk r).st (Prog.ret (e, m)) s') :
    NInv J x0 ⟨upd x.rk r
      ({ x.rk r with st := s', res := e, out := m }.round J (J.call (x.rk r).t) (J.call (x.rk r).t).first), x.q⟩ := by
  have hR := hx.rank r hr
  obtain ⟨hi', he', hQ1, hQ2⟩ := Sat.result (enterP_sat h0 hr ht hR.inv hR.ext hR.cur _) hR.inv hs
  have hround : RInv J x0 r ({ x.rk r with st := s', res := e, out := m }.round J (J.call (x.rk r).t) (J.call (x.rk r).t).first) := by
    refine RInv.round (R := { x.rk r with st := s', res := e, out := m }) hi' (hR.ext.trans _ he') (hR.cur.ext hR.inv he') ht (le_refl _)
      (first_le_last fun hl => (small_dvd h0.gn (h0.largest _ ht) hl).1) ?_ fun hlt => ?_
    · show VRep _ _ _ e (acc J x0 (X J x0 (x.rk r).t) (x.rk r).t r _)
      rw [acc_first h0 ht]; exact hQ1
    · show MsgOk J m (Y J x0 (x.rk r).t _ r)
      rw [Y_first h0 ht]
      exact hQ2 (not_local (le_refl _) hlt)
  refine hx.quiet hround (fun i => ?_) (fun i => ?_)
  · unfold Rank.round sc
    dsimp only
    split
    · rw [hp]
      simp only [Ph.num]
      by_cases h : 3 * i + 2 ≤ 3 * (J.call (x.rk r).t).first + 1
      · right
        refine ⟨by simp [h], fun b d hd => live_false fun _ _ h3 _ _ => ?_⟩
        dsimp only at h3
        simp at h3
        omega
      · left; simp [h]
    · rw [hp]
      right
      refine ⟨by simp [Ph.num], fun b d hd => live_false fun _ _ h3 h4 _ => ?_⟩
      simp [Ph.num] at h3 h4
      omega
  · unfold Rank.round rc
    dsimp only
    split
    · rw [hp]
      simp only [Ph.num]
      by_cases h : 3 * i + 3 ≤ 3 * (J.call (x.rk r).t).first + 1
      · right
        refine ⟨by simp [h], fun b d hd => live_false fun _ _ h3 _ _ => ?_⟩
        dsimp only at h3
        simp at h3
        omega
      · left; simp [h]
    · rw [hp]
      right
      refine ⟨by simp [Ph.num], fun b d hd => live_false fun _ _ h3 h4 _ => ?_⟩
      simp [Ph.num] at h3 h4
      omega

theorem NInv.wait (h0 : Start J x0) {x : Net (C K)} (hx : NInv J x0 x) {r i : Nat} (hr : r < ws J)
    (hp : (x.rk r).ph = .got i) :
    NInv J x0 ⟨upd x.rk r
        ({ x.rk r with out := if (J.call (x.rk r).t).bcast then (x.rk r).out else (x.rk r).inb }.round J
          (J.call (x.rk r).t) (i + 1)), x.q⟩ := by
  have hR := hx.rank r hr
  have hph := hR.ph
  rw [hp] at hph
  obtain ⟨ht, h1, h2, hres, hm⟩ := hph
  have hround := RInv.round (R := { x.rk r with out := if (J.call (x.rk r).t).bcast then (x.rk r).out else (x.rk r).inb })
    (i := i + 1) hR.inv hR.ext hR.cur ht (by dsimp only; omega) h2 hres (fun _ => hm)
  refine hx.quiet hround (fun j => ?_) (fun j => ?_)
  · unfold Rank.round sc
    dsimp only
    rw [hp]
    simp only [Ph.num]
    split
    · left
      simp only [Ph.num]
      exact congrArg (_ + ·) (bump_congr (by omega))
    · simp only [Ph.num]
      by_cases h : 3 * j + 2 ≤ 3 * i + 3
      · left; simp [h]
      · right
        refine ⟨by simp [h], fun b d hd => live_false fun _ _ h3 h4 _ => ?_⟩
        simp [h] at h3 h4
        omega
  · unfold Rank.round rc
    dsimp only
    rw [hp]
    simp only [Ph.num]
    split
    · left
      simp only [Ph.num]
      exact congrArg (_ + ·) (bump_congr (by omega))
    · simp only [Ph.num]
      by_cases h : 3 * j + 3 ≤ 3 * i + 3
      · left; simp [h]
      · right
        refine ⟨by simp [h], fun b d hd => live_false fun _ _ h3 h4 _ => ?_⟩
        simp [h] at h3 h4
        omega

theorem NInv.root (h0 : Start J x0) {x : Net (C K)} (hx : NInv J x0 x) {r i : Nat} (hr : r < ws J)
    (hp : (x.rk r).ph = .sent i) (hsrc : (J.call (x.rk r).t).src J i r = none) :
    NInv J x0 ⟨upd x.rk r { x.rk r with ph := .got i }, x.q⟩ := by
  have hR := hx.rank r hr
  have hph := hR.ph
  rw [hp] at hph
  obtain ⟨ht, h1, h2, hres, hm⟩ := hph
  have hb : (J.call (x.rk r).t).bcast = true := by
    by_contra hb
    simp [Call.src, hb] at hsrc
  refine hx.quiet ⟨hR.inv, hR.ext, hR.cur, hR.le, ht, h1, h2, ?_, ?_⟩ (fun j => ?_) (fun j => ?_)
  · show VRep _ _ _ (x.rk r).res (acc J x0 (X J x0 (x.rk r).t) (x.rk r).t r (i + 1))
    rw [acc_root _ hsrc]; exact hres
  · show MsgOk J (if (J.call (x.rk r).t).bcast then (x.rk r).out else _) (Y J x0 (x.rk r).t (i + 1) r)
    unfold Y at hm ⊢
    simp only [hb, if_true] at hm ⊢
    exact hm
  · left
    unfold sc
    dsimp only
    rw [hp]
    simp only [Ph.num]
    exact congrArg (_ + ·) (bump_congr (by omega))
  · unfold rc
    dsimp only
    rw [hp]
    simp only [Ph.num]
    by_cases h : j = i
    · subst h
      right
      refine ⟨by simp, fun b s hs => live_false fun h3 _ h4 h5 h6 => ?_⟩
      simp at h3 h4 h5 h6
      rw [(src_iff h0 ht hs hr h1 h2).2 h6] at hsrc
      cases hsrc
    · left
      exact congrArg (_ + ·) (bump_congr (by omega))

theorem NInv.send (h0 : Start J x0) {x : Net (C K)} (hx : NInv J x0 x) {r i : Nat} (hr : r < ws J)
    (hp : (x.rk r).ph = .top i) :
    NInv J x0 ⟨upd x.rk r { x.rk r with ph := .sent i },
        push x.q r ((J.call (x.rk r).t).dests J i r) ((J.call (x.rk r).t).bcast, i) (x.rk r).out⟩ := by
  have hR := hx.rank r hr
  have hph := hR.ph
  rw [hp] at hph
  obtain ⟨ht, h1, h2, hres, hm⟩ := hph
  have hrc' : ∀ d j, rc (upd x.rk r { x.rk r with ph := .sent i } d) j = rc (x.rk d) j := by
    intro d j
    by_cases h : d = r
    · subst h; rw [upd_same]
      unfold rc
      dsimp only
      rw [hp]
      simp only [Ph.num]
      exact congrArg (_ + ·) (bump_congr (by omega))
    · rw [upd_ne _ _ _ h]
  have hsc' : ∀ s j, ¬ (s = r ∧ j = i) → sc (upd x.rk r { x.rk r with ph := .sent i } s) j = sc (x.rk s) j := by
    intro s j hsj
    by_cases h : s = r
    · subst h; rw [upd_same]
      unfold sc
      dsimp only
      rw [hp]
      simp only [Ph.num]
      have : j ≠ i := fun e => hsj ⟨rfl, e⟩
      exact congrArg (_ + ·) (bump_congr (by omega))
    · rw [upd_ne _ _ _ h]
  have hold : sc (x.rk r) i = (x.rk r).t := by
    unfold sc; rw [hp]; simp [Ph.num]
  have hnew : sc (upd x.rk r { x.rk r with ph := .sent i } r) i = (x.rk r).t + 1 := by
    rw [upd_same]; unfold sc; simp [Ph.num]
  refine ⟨fun r' h' => ?_, fun s hs d hd tag => ?_, fun s hs d hd tag t hl hlt => ?_⟩
  · show RInv J x0 r' (upd x.rk r { x.rk r with ph := .sent i } r')
    by_cases h : r' = r
    · subst h; rw [upd_same]
      exact ⟨hR.inv, hR.ext, hR.cur, hR.le, ht, h1, h2, hres, hm⟩
    · rw [upd_ne _ _ _ h]; exact hx.rank r' h'
  · have hc := hx.chan s hs d hd tag
    show List.Forall₂ _ (Lf _ (rc (upd x.rk r { x.rk r with ph := .sent i } d) tag.2)
      (sc (upd x.rk r { x.rk r with ph := .sent i } s) tag.2)) (push _ _ _ _ _ s d tag)
    rw [hrc']
    unfold push
    by_cases hcase : s = r ∧ tag.2 = i
    · obtain ⟨rfl, h4⟩ := hcase
      obtain ⟨b, j⟩ := tag
      dsimp only at h4 hc ⊢
      subst h4
      rw [hnew]
      rw [hold] at hc
      by_cases hlive : live J s d (b, j) (x.rk s).t = true
      · have hl := hlive
        unfold live at hl
        simp only [decide_eq_true_eq] at hl
        rw [if_pos ⟨rfl, hl.2.2.2.2, by rw [← hl.2.1]⟩]
        have hle : rc (x.rk d) j ≤ (x.rk s).t := by
          by_contra hgt
          have := hx.caus s hs d hd (b, j) (x.rk s).t hlive (by dsimp only; omega)
          dsimp only at this
          rw [hold] at this
          omega
        rw [Lf_top_yes hle hlive]
        exact List.rel_append hc (List.Forall₂.cons hm .nil)
      · rw [if_neg, Lf_top_no (by simpa using hlive)]
        · exact hc
        · rintro ⟨_, h5, h6⟩
          apply hlive
          unfold live
          simp only [decide_eq_true_eq]
          cases h6
          exact ⟨ht, rfl, h1, h2, h5⟩
    · rw [hsc' s tag.2 hcase, if_neg]
      · exact hc
      · rintro ⟨h5, _, h6⟩
        exact hcase ⟨h5, by rw [h6]⟩
  · have hlt : t < rc (upd x.rk r { x.rk r with ph := .sent i } d) tag.2 := hlt
    rw [hrc'] at hlt
    have := hx.caus s hs d hd tag t hl hlt
    show t < sc (upd x.rk r { x.rk r with ph := .sent i } s) tag.2
    by_cases hcase : s = r ∧ tag.2 = i
    · obtain ⟨rfl, h4⟩ := hcase
      rw [h4] at this ⊢
      rw [hnew]
      rw [hold] at this
      omega
    · rw [hsc' s tag.2 hcase]; exact this

theorem NInv.msg {x : Net (C K)} (hx : NInv J x0 x) (h0 : Start J x0) {r i l : Nat} {m rest} (hr : r < ws J)
    (hp : (x.rk r).ph = .sent i) (hsrc : (J.call (x.rk r).t).src J i r = some l)
    (hq : x.q l r ((J.call (x.rk r).t).bcast, i) = m :: rest) :
    live J l r ((J.call (x.rk r).t).bcast, i) (x.rk r).t = true ∧ (x.rk r).t < sc (x.rk l) i ∧ l < ws J ∧
    MsgOk J m (Y J x0 (x.rk r).t i l) ∧
    List.Forall₂ (fun t m => MsgOk J m (Y J x0 t i l))
      (Lf (live J l r ((J.call (x.rk r).t).bcast, i)) ((x.rk r).t + 1) (sc (x.rk l) i)) rest := by
  have hR := hx.rank r hr
  have hph := hR.ph
  rw [hp] at hph
  obtain ⟨ht, h1, h2, hres, hm⟩ := hph
  obtain ⟨hl, hcol, hY⟩ := src_lt h0 ht hr h1 h2 hsrc
  have hlive : live J l r ((J.call (x.rk r).t).bcast, i) (x.rk r).t = true := by
    unfold live
    simp only [decide_eq_true_eq]
    exact ⟨ht, trivial, h1, h2, (src_iff h0 ht hl hr h1 h2).1 hsrc⟩
  have hold : rc (x.rk r) i = (x.rk r).t := by unfold rc; rw [hp]; simp [Ph.num]
  have hc := hx.chan l hl r hr ((J.call (x.rk r).t).bcast, i)
  rw [hq] at hc
  dsimp only at hc
  rw [hold] at hc
  have hlt : (x.rk r).t < sc (x.rk l) i := by
    by_contra hge
    rw [Lf_nil (by omega)] at hc
    cases hc
  rw [Lf_bot_yes hlt hlive] at hc
  cases hc with
  | cons a b => exact ⟨hlive, hlt, hl, a, b⟩

theorem NInv.recv (h0 : Start J x0) {x : Net (C K)} (hx : NInv J x0 x) {r i l : Nat} {m rest fk e s'} (hr : r < ws J)
    (hp : (x.rk r).ph = .sent i) (hsrc : (J.call (x.rk r).t).src J i r = some l)
    (hq : x.q l r ((J.call (x.rk r).t).bcast, i) = m :: rest)
    (hst : Steps (recvP J fk (J.call (x.rk r).t) r i (x.rk r).res m) (x.rk r).st (Prog.ret e) s') :
    NInv J x0 ⟨upd x.rk r { x.rk r with ph := .got i, st := s', res := e, inb := m },
        pop x.q l r ((J.call (x.rk r).t).bcast, i) rest⟩ := by
  have hR := hx.rank r hr
  have hph := hR.ph
  rw [hp] at hph
  obtain ⟨ht, h1, h2, hres, hm⟩ := hph
  obtain ⟨hl, hcol, hY⟩ := src_lt h0 ht hr h1 h2 hsrc
  obtain ⟨hlive, hlt, _, hmsg, hrest⟩ := hx.msg h0 hr hp hsrc hq
  rw [hY] at hmsg
  obtain ⟨hi', he', hQ⟩ := Sat.result (recvP_sat h0 fk hr ht hcol hR.inv hR.ext hres hmsg) hR.inv hst
  generalize hRdef : ({ x.rk r with ph := .got i, st := s', res := e, inb := m } : Rank (C K)) = R
  have hsc' : ∀ s j, sc (upd x.rk r R s) j = sc (x.rk s) j := by
    intro s j
    by_cases h : s = r
    · subst h; rw [upd_same, ← hRdef]
      unfold sc
      dsimp only
      rw [hp]
      simp only [Ph.num]
      exact congrArg (_ + ·) (bump_congr (by omega))
    · rw [upd_ne _ _ _ h]
  have hrc' : ∀ d j, ¬ (d = r ∧ j = i) → rc (upd x.rk r R d) j = rc (x.rk d) j := by
    intro d j hsj
    by_cases h : d = r
    · subst h; rw [upd_same, ← hRdef]
      unfold rc
      dsimp only
      rw [hp]
      simp only [Ph.num]
      have : j ≠ i := fun e => hsj ⟨rfl, e⟩
      exact congrArg (_ + ·) (bump_congr (by omega))
    · rw [upd_ne _ _ _ h]
  have hold : rc (x.rk r) i = (x.rk r).t := by unfold rc; rw [hp]; simp [Ph.num]
  have hnew : rc (upd x.rk r R r) i = (x.rk r).t + 1 := by
    rw [upd_same, ← hRdef]; unfold rc; simp [Ph.num]
  refine ⟨fun r' h' => ?_, fun s hs d hd tag => ?_, fun s hs d hd tag t hlv hlt' => ?_⟩
  · show RInv J x0 r' (upd x.rk r R r')
    by_cases h : r' = r
    · subst h; rw [upd_same, ← hRdef]
      refine ⟨hi', hR.ext.trans _ he', hR.cur.ext hR.inv he', hR.le, ht, h1, h2, ?_, ?_⟩
      · show VRep _ _ _ e (acc J x0 (X J x0 (x.rk r').t) (x.rk r').t r' (i + 1))
        rw [acc_succ _ (by rw [hsrc]; rfl)]
        exact hQ
      · show MsgOk J (if (J.call (x.rk r').t).bcast then (x.rk r').out else m) (Y J x0 (x.rk r').t (i + 1) r')
        unfold Y at hm ⊢
        unfold Call.col at hmsg
        cases hb : (J.call (x.rk r').t).bcast
        · simp only [hb, Bool.false_eq_true, if_false] at hmsg ⊢
          exact hmsg
        · simp only [hb, if_true] at hm ⊢
          exact hm
    · rw [upd_ne _ _ _ h]; exact hx.rank r' h'
  · have hc := hx.chan s hs d hd tag
    show List.Forall₂ _ (Lf _ (rc (upd x.rk r R d) tag.2) (sc (upd x.rk r R s) tag.2)) (pop _ _ _ _ _ s d tag)
    rw [hsc']
    unfold pop
    by_cases hcase : d = r ∧ tag.2 = i
    · obtain ⟨rfl, h4⟩ := hcase
      obtain ⟨b, j⟩ := tag
      dsimp only at h4 hc ⊢
      subst h4
      rw [hnew]
      rw [hold] at hc
      by_cases hlv : live J s d (b, j) (x.rk d).t = true
      · have hlv' := hlv
        unfold live at hlv'
        simp only [decide_eq_true_eq] at hlv'
        have h6 := (src_iff h0 ht hs hd h1 h2).2 hlv'.2.2.2.2
        rw [hsrc] at h6
        have h6 : l = s := by simpa using h6
        subst h6
        have hb : b = (J.call (x.rk d).t).bcast := hlv'.2.1.symm
        rw [if_pos ⟨rfl, rfl, by rw [hb]⟩, hb]
        exact hrest
      · rw [if_neg, Lf_bot_no (by simpa using hlv)]
        · exact hc
        · rintro ⟨h5, _, h6⟩
          apply hlv
          rw [h5, h6]
          exact hlive
    · rw [hrc' d tag.2 hcase, if_neg]
      · exact hc
      · rintro ⟨_, h5, h6⟩
        exact hcase ⟨h5, by rw [h6]⟩
  · have hlt' : t < rc (upd x.rk r R d) tag.2 := hlt'
    show t < sc (upd x.rk r R s) tag.2
    rw [hsc']
    by_cases hcase : d = r ∧ tag.2 = i
    · obtain ⟨rfl, h4⟩ := hcase
      obtain ⟨b, j⟩ := tag
      dsimp only at h4 hlt' ⊢
      subst h4
      rw [hnew] at hlt'
      rcases Nat.lt_succ_iff_lt_or_eq.1 hlt' with h | h
      · exact hx.caus s hs d hd (b, j) t hlv (by dsimp only; rw [hold]; exact h)
      · subst h
        have hlv' := hlv
        unfold live at hlv'
        simp only [decide_eq_true_eq] at hlv'
        have h6 := (src_iff h0 ht hs hd h1 h2).2 hlv'.2.2.2.2
        rw [hsrc] at h6
        have h6 : l = s := by simpa using h6
        subst h6
        exact hlt
    · rw [hrc' d tag.2 hcase] at hlt'
      exact hx.caus s hs d hd tag t hlv hlt'

theorem NInv.step (h0 : Start J x0) {strict : Bool} {x y : Net (C K)} {r : Nat} (hx : NInv J x0 x)
    (hs : Step J strict x r y) : NInv J x0 y := by
  cases hs with
  | enter a b c d => exact hx.enter h0 a b c d
  | send a b => exact hx.send h0 a b
  | recv a b c d e => exact hx.recv h0 a b c d e
  | root a b c => exact hx.root h0 a b c
  | wait a b _ => exact hx.wait h0 a b

theorem NInv.start (h0 : Start J x0) : NInv J x0 x0 := by
  refine ⟨fun r hr => ?_, fun s hs d hd tag => ?_, fun s hs d hd tag t hl ht => ?_⟩
  · refine ⟨h0.inv r hr, SExt.refl _ _, ⟨h0.cur r hr, fun i => ?_⟩, ?_, ?_⟩
    · rw [h0.t0 r hr]; rfl
    · rw [h0.t0 r hr]; exact Nat.zero_le _
    · rw [h0.ph r hr]; trivial
  · rw [h0.q s hs d hd tag, Lf_nil]
    · exact .nil
    · unfold sc rc; rw [h0.t0 s hs, h0.ph s hs]; simp [Ph.num]
  · exfalso
    unfold rc at ht
    rw [h0.t0 d hd, h0.ph d hd] at ht
    simp [Ph.num] at ht

theorem NInv.run (h0 : Start J x0) {strict : Bool} {k : Nat} {x : Net (C K)} (h : Run J strict x0 k x) : NInv J x0 x := by
  induction h with
  | nil => exact NInv.start h0
  | cons _ hs ih => exact ih.step h0 hs

/-- No rank's local computation can fail. -/
theorem NInv.noFault (h0 : Start J x0) {x : Net (C K)} (hx : NInv J x0 x) (r : Nat) : ¬ Faulty J x r := by
  intro hf
  cases hf with
  | enter hr ht hp hs hf =>
    have hR := hx.rank r hr
    exact ((enterP_sat h0 hr ht hR.inv hR.ext hR.cur _).all_schedules hR.inv hs).1 hf
  | recv hr hp hsrc hq hs hf =>
    have hR := hx.rank r hr
    have hph := hR.ph
    rw [hp] at hph
    obtain ⟨ht, h1, h2, hres, hm⟩ := hph
    obtain ⟨hl, hcol, hY⟩ := src_lt h0 ht hr h1 h2 hsrc
    obtain ⟨hlive, hlt, _, hmsg, hrest⟩ := hx.msg h0 hr hp hsrc hq
    rw [hY] at hmsg
    exact ((recvP_sat h0 _ hr ht hcol hR.inv hR.ext hres hmsg).all_schedules hR.inv hs).1 hf

/-- Every local computation can be finished. -/
theorem Sat.finish {env : Env (C K)} {α : Type} {p : P (C K) α} {s : St (C K)} {Q} (h : Sat (world env) p s Q)
    (hi : Inv env s) : ∃ a s', Steps p s (Prog.ret a) s' := by
  have key : ∀ q : P (C K) α, Acc (fun p' p => ∃ s s', Prog.Step p s p' s') q → ∀ s1, Steps p s q s1 →
      ∃ a s', Steps p s (Prog.ret a) s' := by
    intro q hq
    induction hq with
    | intro q _ ih =>
      intro s1 hst
      obtain ⟨_, _, _, hh⟩ := h.all_schedules hi hst
      rcases hh with ⟨a, rfl, _⟩ | ⟨p', s', hs'⟩
      · exact ⟨a, s1, hst⟩
      · exact ih p' ⟨_, _, hs'⟩ s' (.tail hst hs')
  exact key p (Prog.acc p) s .refl

theorem Ph.num_inj {a b : Ph} (h : a.num = b.num) : a = b := by
  cases a <;> cases b <;> simp only [Ph.num] at h <;> first | rfl | (exfalso; omega) | (congr 1; omega)

/-- Deadlock freedom: unless all ranks are done, the rank that is furthest behind can go on, even if MPI completes sends as
late as possible. -/
theorem NInv.progress (h0 : Start J x0) {x : Net (C K)} (hx : NInv J x0 x) (hd : ¬ Done J x) :
    ∃ r y, Step J true x r y := by
  -- the rank furthest behind
  have hmin : ∃ r < ws J, (x.rk r).t < J.len ∧ ∀ r' < ws J, (x.rk r).t < (x.rk r').t ∨
      ((x.rk r').t = (x.rk r).t ∧ (x.rk r).ph.num ≤ (x.rk r').ph.num) := by
    unfold Done at hd
    simp only [not_forall] at hd
    obtain ⟨r1, hr1, hne⟩ := hd
    have hle1 := (hx.rank r1 hr1).le
    have hex1 : ∃ t, ∃ r < ws J, (x.rk r).t = t := ⟨_, r1, hr1, rfl⟩
    classical
    let T := Nat.find hex1
    have hT : ∃ r < ws J, (x.rk r).t = T := Nat.find_spec hex1
    have hTmin : ∀ r < ws J, T ≤ (x.rk r).t := fun r hr => Nat.find_min' hex1 ⟨r, hr, rfl⟩
    have hex2 : ∃ m, ∃ r < ws J, (x.rk r).t = T ∧ (x.rk r).ph.num = m := by
      obtain ⟨r, hr, e⟩ := hT; exact ⟨_, r, hr, e, rfl⟩
    let M := Nat.find hex2
    obtain ⟨r, hr, e1, e2⟩ : ∃ r < ws J, (x.rk r).t = T ∧ (x.rk r).ph.num = M := Nat.find_spec hex2
    have hMmin : ∀ r < ws J, (x.rk r).t = T → M ≤ (x.rk r).ph.num := fun r hr e => Nat.find_min' hex2 ⟨r, hr, e, rfl⟩
    refine ⟨r, hr, ?_, fun r' hr' => ?_⟩
    · have := hTmin r1 hr1; omega
    · rcases Nat.lt_or_ge (x.rk r).t (x.rk r').t with h | h
      · exact .inl h
      · have := hTmin r' hr'
        exact .inr ⟨by omega, by rw [e2]; exact hMmin r' hr' (by omega)⟩
  obtain ⟨r, hr, ht, hmin⟩ := hmin
  have hR := hx.rank r hr
  have hph := hR.ph
  -- everybody else has sent (received) in every round this rank has sent (received) in
  have hscm : ∀ r' < ws J, ∀ j, sc (x.rk r) j ≤ sc (x.rk r') j := by
    intro r' hr' j
    unfold sc
    rcases hmin r' hr' with h | ⟨h, h'⟩ <;> split_ifs <;> omega
  have hrcm : ∀ r' < ws J, ∀ j, rc (x.rk r) j ≤ rc (x.rk r') j := by
    intro r' hr' j
    unfold rc
    rcases hmin r' hr' with h | ⟨h, h'⟩ <;> split_ifs <;> omega
  cases hp : (x.rk r).ph with
  | enter =>
    obtain ⟨⟨e, m⟩, s', hs⟩ := Sat.finish (enterP_sat h0 hr ht hR.inv hR.ext hR.cur _) hR.inv
    exact ⟨r, _, .enter hr ht hp hs⟩
  | top i => exact ⟨r, _, .send hr hp⟩
  | sent i =>
    rw [hp] at hph
    obtain ⟨_, h1, h2, hres, hm⟩ := hph
    cases hsrc : (J.call (x.rk r).t).src J i r with
    | none => exact ⟨r, _, .root hr hp hsrc⟩
    | some l =>
      obtain ⟨hl, hcol, hY⟩ := src_lt h0 ht hr h1 h2 hsrc
      have hlive : live J l r ((J.call (x.rk r).t).bcast, i) (x.rk r).t = true := by
        unfold live
        simp only [decide_eq_true_eq]
        exact ⟨ht, trivial, h1, h2, (src_iff h0 ht hl hr h1 h2).1 hsrc⟩
      have hc := hx.chan l hl r hr ((J.call (x.rk r).t).bcast, i)
      dsimp only at hc
      have hold : rc (x.rk r) i = (x.rk r).t := by unfold rc; rw [hp]; simp [Ph.num]
      have hsr : sc (x.rk r) i = (x.rk r).t + 1 := by unfold sc; rw [hp]; simp [Ph.num]
      have := hscm l hl i
      rw [hold, Lf_bot_yes (by omega) hlive] at hc
      generalize hq : x.q l r ((J.call (x.rk r).t).bcast, i) = ql at hc
      cases hc with
      | cons a b =>
        rw [hY] at a
        obtain ⟨e, s', hs⟩ := Sat.finish (recvP_sat h0 (fun _ => false) hr ht hcol hR.inv hR.ext hres a) hR.inv
        exact ⟨r, _, .recv hr hp hsrc hq hs⟩
  | got i =>
    rw [hp] at hph
    obtain ⟨_, h1, h2, hres, hm⟩ := hph
    refine ⟨r, _, .wait hr hp fun _ => ⟨fun d hd => ?_, fun _ r' hr' => ?_⟩⟩
    · have hdw : d < ws J := by
        have hl := not_local h1 h2
        obtain ⟨hS2, u, hu, hw⟩ := small_dvd h0.gn (h0.largest _ ht) hl
        unfold Call.dests at hd
        split at hd
        · split at hd
          · simp at hd; exact hd.1
          · cases hd
        · simp at hd
          subst hd
          exact right_lt rfl hu hw hr (by omega)
      have hc := hx.chan r hr d hdw ((J.call (x.rk r).t).bcast, i)
      dsimp only at hc
      have h3 : rc (x.rk r) i = (x.rk r).t + 1 := by unfold rc; rw [hp]; simp [Ph.num]
      have h4 : sc (x.rk r) i = (x.rk r).t + 1 := by unfold sc; rw [hp]; simp [Ph.num]
      have := hrcm d hdw i
      rw [Lf_nil (by omega)] at hc
      cases hq : x.q r d ((J.call (x.rk r).t).bcast, i) with
      | nil => rfl
      | cons a b => rw [hq] at hc; cases hc
    · rcases hmin r' hr' with h | ⟨h, h'⟩
      · exact .inl h
      · rw [hp] at h'
        have h' : 3 * i + 3 ≤ (x.rk r').ph.num := h'
        exact .inr ⟨h, by omega⟩

/-! ## Termination -/

theorem last_le (h0 : Start J x0) {t : Nat} (ht : t < J.len) : (J.call t).last J ≤ ws J := by
  have hpos : 1 ≤ ws J := Nat.one_le_two_pow
  unfold Call.last
  split
  · unfold Call.first; split <;> omega
  · next hl =>
    split
    · exact le_refl _
    · obtain ⟨_, u, hu, hw⟩ := small_dvd h0.gn (h0.largest t ht) (by simpa using hl)
      rw [hw]; exact Nat.le_mul_of_pos_right _ hu

/-- Steps a rank can still make. -/
def mu (J : Job (C K)) (R : Rank (C K)) : Nat := (J.len - R.t) * (3 * ws J + 4) - R.ph.num

def total (J : Job (C K)) (x : Net (C K)) : Nat := ((List.range (ws J)).map fun r => mu J (x.rk r)).sum

theorem sum_lt_of_lt {l : List Nat} (hn : l.Nodup) {f g : Nat → Nat} {r : Nat} (hr : r ∈ l) (h : f r < g r)
    (he : ∀ a, a ≠ r → f a = g a) : (l.map f).sum + 1 ≤ (l.map g).sum := by
  induction l with
  | nil => cases hr
  | cons a l ih =>
    rw [List.nodup_cons] at hn
    rcases List.mem_cons.1 hr with h1 | h1
    · subst h1
      have : l.map f = l.map g := List.map_congr_left fun b hb => he b fun e => hn.1 (e ▸ hb)
      simp only [List.map_cons, List.sum_cons, this]
      omega
    · have := ih hn.2 h1
      have h2 := he a fun e => hn.1 (e ▸ h1)
      simp only [List.map_cons, List.sum_cons, h2]
      omega

theorem total_upd {x : Net (C K)} {r : Nat} {R : Rank (C K)} {q} (hr : r < ws J) (h : mu J R < mu J (x.rk r)) :
    total J ⟨upd x.rk r R, q⟩ + 1 ≤ total J x := by
  unfold total
  refine sum_lt_of_lt List.nodup_range (r := r) (List.mem_range.2 hr) ?_ fun a ha => ?_
  · dsimp only; rw [upd_same]; exact h
  · dsimp only; rw [upd_ne _ _ _ ha]

theorem mu_lt {R R' : Rank (C K)} (ht : R.t < J.len) (hn : R.ph.num < 3 * ws J + 4)
    (h : (R'.t = R.t ∧ R.ph.num < R'.ph.num ) ∨ R'.t = R.t + 1) : mu J R' < mu J R := by
  unfold mu
  obtain ⟨d, hd⟩ : ∃ d, J.len - R.t = d + 1 := ⟨J.len - R.t - 1, by omega⟩
  rcases h with ⟨h1, h2⟩ | h1
  · rw [h1, hd, Nat.add_mul]; omega
  · rw [h1, show J.len - (R.t + 1) = d by omega, hd, Nat.add_mul]; omega

theorem NInv.decr (h0 : Start J x0) {strict : Bool} {x y : Net (C K)} {r : Nat} (hx : NInv J x0 x)
    (hs : Step J strict x r y) : total J y + 1 ≤ total J x := by
  cases hs with
  | enter hr ht hp hst =>
    refine total_upd hr (mu_lt ht (by rw [hp]; simp only [Ph.num]; omega) ?_)
    unfold Rank.round
    split
    · left; exact ⟨rfl, by rw [hp]; simp only [Ph.num]; omega⟩
    · right; rfl
  | send hr hp =>
    have hph := (hx.rank r hr).ph
    rw [hp] at hph
    have := last_le h0 hph.1
    refine total_upd hr (mu_lt hph.1 (by rw [hp]; simp only [Ph.num]; have := hph.2.2.1; omega) (.inl ⟨rfl, ?_⟩))
    rw [hp]; simp only [Ph.num]; omega
  | recv hr hp _ _ _ =>
    have hph := (hx.rank r hr).ph
    rw [hp] at hph
    have := last_le h0 hph.1
    refine total_upd hr (mu_lt hph.1 (by rw [hp]; simp only [Ph.num]; have := hph.2.2.1; omega) (.inl ⟨rfl, ?_⟩))
    rw [hp]; simp only [Ph.num]; omega
  | root hr hp _ =>
    have hph := (hx.rank r hr).ph
    rw [hp] at hph
    have := last_le h0 hph.1
    refine total_upd hr (mu_lt hph.1 (by rw [hp]; simp only [Ph.num]; have := hph.2.2.1; omega) (.inl ⟨rfl, ?_⟩))
    rw [hp]; simp only [Ph.num]; omega
  | wait hr hp _ =>
    have hph := (hx.rank r hr).ph
    rw [hp] at hph
    have := last_le h0 hph.1
    refine total_upd hr (mu_lt hph.1 (by rw [hp]; simp only [Ph.num]; have := hph.2.2.1; omega) ?_)
    unfold Rank.round
    split
    · left; exact ⟨rfl, by rw [hp]; simp only [Ph.num]; omega⟩
    · right; rfl

theorem run_bound (h0 : Start J x0) {strict : Bool} {k : Nat} {x : Net (C K)} (h : Run J strict x0 k x) :
    k + total J x ≤ total J x0 := by
  induction h with
  | nil => omega
  | cons hr hs ih =>
    have := (NInv.run h0 hr).decr h0 hs
    omega

theorem total_start (h0 : Start J x0) : total J x0 = ws J * (J.len * (3 * ws J + 4)) := by
  unfold total
  have : (List.range (ws J)).map (fun r => mu J (x0.rk r)) = (List.range (ws J)).map fun _ => J.len * (3 * ws J + 4) :=
    List.map_congr_left fun r hr => by
      have hr := List.mem_range.1 hr
      simp [mu, h0.t0 r hr, h0.ph r hr, Ph.num]
  rw [this]
  simp

/-! ## The result -/

theorem sum_blocks {M : Type} [AddCommMonoid M] (f : Nat → M) (a m : Nat) :
    ∑ j ∈ Finset.range (a * m), f j = ∑ c ∈ Finset.range a, ∑ j ∈ Finset.range m, f (c * m + j) := by
  induction a with
  | zero => simp
  | succ a ih => rw [Nat.succ_mul, Finset.sum_range_add, ih, Finset.sum_range_succ]

theorem mem_cols (h0 : Start J x0) {t r c : Nat} (ht : t < J.len) (hr : r < ws J) (hc : c < ws J) :
    ((J.call t).cols J r ((J.call t).last J)).Nodup ∧
    (∀ c ∈ (J.call t).cols J r ((J.call t).last J), c < ws J) ∧
    (c ∉ (J.call t).cols J r ((J.call t).last J) → ∀ x y, x < 2 ^ loc J → y < 2 ^ loc J →
      (r * 2 ^ loc J + x) / 2 ^ ((J.call t).largest + 1) ≠ (c * 2 ^ loc J + y) / 2 ^ ((J.call t).largest + 1)) := by
  have hgn := h0.gn
  cases hl : (J.call t).isLocal J
  · obtain ⟨hS2, u, hu, hw⟩ := small_dvd h0.gn (h0.largest t ht) hl
    cases hb : (J.call t).bcast
    · have hcols : (J.call t).cols J r ((J.call t).last J) = (List.range ((J.call t).small J)).map ((J.call t).nb J r) := by
        unfold Call.cols Call.last
        rw [hl, hb]; simp
      rw [hcols]
      generalize hS : (J.call t).small J = S at *
      obtain ⟨a, b, rfl, hbS⟩ : ∃ a b, r = S * a + b ∧ b < S := ⟨r / S, r % S, (Nat.div_add_mod r S).symm, Nat.mod_lt _ (by omega)⟩
      refine ⟨?_, ?_, ?_⟩
      · rw [List.nodup_map_iff_inj_on List.nodup_range]
        intro i hi j hj hij
        have hi := List.mem_range.1 hi
        have hj := List.mem_range.1 hj
        rw [nb_eq hS hu hw hbS (by omega), nb_eq hS hu hw hbS (by omega)] at hij
        split_ifs at hij <;> omega
      · intro c' hc'
        obtain ⟨i, hi, rfl⟩ := List.mem_map.1 hc'
        exact nb_lt hS hu hw hr (by have := List.mem_range.1 hi; omega) (by omega)
      · intro hnot x y hx hy heq
        apply hnot
        have hpow : 2 ^ ((J.call t).largest + 1) = 2 ^ loc J * S := by
          rw [← hS]
          unfold Call.small loc
          rw [← Nat.pow_add]
          have hl : ¬ (J.call t).largest < J.n - J.g := by simpa [Call.isLocal] using hl
          congr 1; omega
        have hpos := Nat.two_pow_pos (loc J)
        have hdiv : ∀ z w, w < 2 ^ loc J → (z * 2 ^ loc J + w) / 2 ^ ((J.call t).largest + 1) = z / S := by
          intro z w hw
          rw [hpow, ← Nat.div_div_eq_div_mul, Nat.add_comm, Nat.add_mul_div_right _ _ hpos, Nat.div_eq_of_lt hw, Nat.zero_add]
        rw [hdiv _ _ hx, hdiv _ _ hy, Nat.mul_add_div (by omega), Nat.div_eq_of_lt hbS, Nat.add_zero] at heq
        have hcd := Nat.div_add_mod c S
        have hcm := Nat.mod_lt c (show S > 0 by omega)
        rw [← heq] at hcd
        generalize c % S = b' at *
        refine List.mem_map.2 ⟨if b' ≤ b then b - b' else S + b - b', ?_, ?_⟩
        · rw [List.mem_range]; split_ifs <;> omega
        · rw [nb_eq hS hu hw hbS (by split_ifs <;> omega)]
          split_ifs <;> omega
    · have hcols : (J.call t).cols J r ((J.call t).last J) = r :: (List.range (ws J)).filter (· ≠ r) := by
        unfold Call.cols Call.last
        rw [hl, hb]; simp
      rw [hcols]
      refine ⟨?_, ?_, ?_⟩
      · rw [List.nodup_cons]
        exact ⟨by simp, List.nodup_range.filter _⟩
      · intro c' hc'
        rcases List.mem_cons.1 hc' with rfl | h
        · exact hr
        · exact List.mem_range.1 (List.mem_filter.1 h).1
      · intro hnot
        exfalso
        apply hnot
        by_cases h : c = r
        · simp [h]
        · simp [h, hc]
  · have hcols : (J.call t).cols J r ((J.call t).last J) = [r] := by
      have : (J.call t).last J = (J.call t).first := by unfold Call.last; rw [hl]; simp
      rw [this, cols_first h0 ht]
    rw [hcols]
    refine ⟨by simp, by simpa using hr, ?_⟩
    intro hnot x y hx hy heq
    apply hnot
    have hl : (J.call t).largest < J.n - J.g := by simpa [Call.isLocal] using hl
    have hpos := Nat.two_pow_pos (loc J)
    have hpow : 2 ^ loc J = 2 ^ ((J.call t).largest + 1) * 2 ^ (loc J - ((J.call t).largest + 1)) := by
      rw [← Nat.pow_add]; congr 1; unfold loc; omega
    have h1 : ∀ z w, w < 2 ^ loc J → (z * 2 ^ loc J + w) / 2 ^ ((J.call t).largest + 1) / 2 ^ (loc J - ((J.call t).largest + 1)) = z := by
      intro z w hw
      rw [Nat.div_div_eq_div_mul, ← hpow, Nat.add_comm, Nat.add_mul_div_right _ _ hpos, Nat.div_eq_of_lt hw, Nat.zero_add]
    have h2 := h1 r x hx
    rw [heq, h1 c y hy] at h2
    simp [h2]

end proofs
end QDD.Mpi
