import Verif.Conc.Wsq
import Mathlib.Data.List.Range
import Mathlib.Data.Multiset.Basic
import Mathlib.Data.Multiset.AddSub
import Mathlib.Tactic.SplitIfs
import Mathlib.Tactic.Linarith
import Mathlib.Algebra.BigOperators.Group.Finset.Basic
import Mathlib.Algebra.Order.BigOperators.Group.Finset
import Mathlib.Algebra.Order.Group.Multiset
import Mathlib.Tactic.Abel
/-!
# C42: the work-stealing queue is linearizable; nothing is lost or duplicated
-/
set_option linter.unusedVariables false
set_option linter.unusedSimpArgs false
set_option linter.unusedSectionVars false

namespace QDD.Props
open QDD.Wsq

variable {T : Type}

/-- The bottom of the logical contents: while a `pop` is undecided the last item still counts. -/
def cb (s : St T) : Int :=
  match s.own with
  | .pop2 b _ => b + 1
  | .pop3 b _ t => if t < b then b else b + 1
  | .pop4 b _ _ => b + 1
  | .pop5 b _ => b + 1
  | _ => s.bottom

/-- The logical contents. -/
def contents (s : St T) : List T :=
  (List.range (cb s - s.top).toNat).map fun (k : Nat) => (s.heap s.cur).get (s.top + k)

def absOwn (s : St T) : Spec.Own T :=
  match s.own with
  | .idle => .idle
  | .push0 o | .push1 o _ | .push2 o _ _ | .push2r o _ _ _ | .push3 o _ _ | .push4 o _ => .pushing o
  | .pushR => .pushed
  | .pop0 | .pop1 _ _ | .pop2 _ _ | .pop4 _ _ _ => .popping
  | .pop3 b a t => if t < b then .popped (some ((s.heap a).get b)) else if t = b then .popping else .popped none
  | .pop5 _ r | .popR r => .popped r

def absThf : Thief T → Spec.Thief T
  | .idle => .idle
  | .sR r => .stolen r
  | _ => .stealing

def abs (s : St T) : Spec.St T := ⟨contents s, absOwn s, fun i => absThf (s.thf i)⟩

/-- What holds of the owner's local variables. -/
def OwnOk (s : St T) : Prop :=
  match s.own with
  | .push1 _ b => s.bottom = b
  | .push2 _ b t => s.bottom = b ∧ 0 ≤ t ∧ t ≤ s.top ∧ b - t ≤ (s.heap s.cur).cap
  | .push2r _ b t n => s.bottom = b ∧ 0 ≤ t ∧ t ≤ s.top ∧ n < s.fresh ∧ n ≠ s.cur ∧ (∃ k, (s.heap n).cap = 2 ^ k) ∧
      b - t < (s.heap n).cap ∧ ∀ i, t ≤ i → i < b → (s.heap n).get i = (s.heap s.cur).get i
  | .push3 _ b a => s.bottom = b ∧ a = s.cur ∧ b - s.top < (s.heap s.cur).cap
  | .push4 o b => s.bottom = b ∧ (s.heap s.cur).get b = o ∧ b - s.top < (s.heap s.cur).cap
  | .pop1 b a => s.bottom = b + 1 ∧ a = s.cur
  | .pop2 b a => s.bottom = b ∧ a = s.cur
  | .pop3 b a t => s.bottom = b ∧ a = s.cur ∧ t ≤ s.top
  | .pop4 b t x => s.bottom = b ∧ t = b ∧ b ≤ s.top ∧ x = (s.heap s.cur).get b
  | .pop5 b _ => s.bottom = b ∧ s.top = b + 1
  | _ => True

/-- What holds of a thief's local variables. -/
def ThfOk (s : St T) : Thief T → Prop
  | .s1 t => t ≤ s.top
  | .s2 t => t ≤ s.top ∧ (t = s.top → t < cb s)
  | .s3 t a => t ≤ s.top ∧ a < s.fresh ∧ (t = s.top → t < cb s ∧ (s.heap a).get t = (s.heap s.cur).get t)
  | .s4 t x => t ≤ s.top ∧ (t = s.top → t < cb s ∧ x = (s.heap s.cur).get t)
  | _ => True

structure Ok (s : St T) : Prop where
  top0 : 0 ≤ s.top
  le : s.top ≤ cb s
  sz : cb s - s.top ≤ (s.heap s.cur).cap
  fresh : s.cur < s.fresh
  pow : ∃ k, (s.heap s.cur).cap = 2 ^ k
  own : OwnOk s
  thf : ∀ i, ThfOk s (s.thf i)

/-- An abstract step or none. -/
def Sim (a : Spec.St T) (e : Option (Ev T)) (a' : Spec.St T) : Prop :=
  Spec.Step a e a' ∨ (e = none ∧ a = a')

/-! ### Cells -/

theorem get_put_self (a : Arr T) (i : Int) (x : T) : (a.put i x).get i = x := by
  simp [Arr.get, Arr.put]

theorem mod_ne {k : Nat} {i j : Int} (hi : 0 ≤ i) (hij : i < j) (hlt : j - i < (2 ^ k : Nat)) :
    i.toNat % 2 ^ k ≠ j.toNat % 2 ^ k := by
  intro h
  obtain ⟨m, rfl⟩ := Int.eq_ofNat_of_zero_le hi
  obtain ⟨n, rfl⟩ := Int.eq_ofNat_of_zero_le (show 0 ≤ j by omega)
  simp only [Int.toNat_natCast] at h
  have h1 := Nat.div_add_mod m (2 ^ k)
  have h2 := Nat.div_add_mod n (2 ^ k)
  have hmn : m < n := by omega
  have hlt' : n < m + 2 ^ k := by omega
  have hle : m / 2 ^ k ≤ n / 2 ^ k := Nat.div_le_div_right hmn.le
  rcases Nat.eq_or_lt_of_le hle with he | hl
  · rw [he, h] at h1; omega
  · have := Nat.mul_le_mul_left (2 ^ k) hl
    rw [Nat.succ_eq_add_one, Nat.mul_add, Nat.mul_one] at this
    omega

theorem get_put_ne {a : Arr T} {k : Nat} (ha : a.cap = 2 ^ k) {i j : Int} (x : T) (hi : 0 ≤ i) (hij : i < j)
    (hlt : j - i < a.cap) : (a.put j x).get i = a.get i := by
  rw [ha] at hlt
  have := mod_ne hi hij hlt
  simp only [Arr.get, Arr.put, ha, Nat.and_two_pow_sub_one_eq_mod]
  rw [Function.update_of_ne this]

theorem put_cap (a : Arr T) (i : Int) (x : T) : (a.put i x).cap = a.cap := rfl

theorem copyLoop_cap (src : Arr T) : ∀ (k : Nat) (i : Int) (dst : Arr T), (copyLoop src i k dst).cap = dst.cap := by
  intro k
  induction k with
  | zero => intro i dst; rfl
  | succ k ih => intro i dst; rw [copyLoop, ih, put_cap]

theorem get_put_ne' {a : Arr T} {k : Nat} (ha : a.cap = 2 ^ k) {i j : Int} (x : T) (hj : 0 ≤ j) (hij : j < i)
    (hlt : i - j < a.cap) : (a.put j x).get i = a.get i := by
  rw [ha] at hlt
  have := mod_ne hj hij hlt
  simp only [Arr.get, Arr.put, ha, Nat.and_two_pow_sub_one_eq_mod]
  rw [Function.update_of_ne this.symm]

theorem copyLoop_before (src : Arr T) : ∀ (k : Nat) (i : Int) (dst : Arr T) (p : Nat), dst.cap = 2 ^ p →
    ∀ j, 0 ≤ j → j < i → i + k - j ≤ dst.cap → (copyLoop src i k dst).get j = dst.get j := by
  intro k
  induction k with
  | zero => intro i dst p hp j h1 h2 h3; rfl
  | succ k ih =>
    intro i dst p hp j h1 h2 h3
    rw [copyLoop, ih (i + 1) (dst.put i (src.get i)) p hp j h1 (by omega) (by rw [put_cap]; push_cast at h3; omega),
      get_put_ne hp _ h1 h2 (by push_cast at h3; omega)]

theorem copyLoop_get (src : Arr T) : ∀ (k : Nat) (i : Int) (dst : Arr T) (p : Nat), dst.cap = 2 ^ p → 0 ≤ i → (k : Int) ≤ dst.cap →
    ∀ j, i ≤ j → j < i + k → (copyLoop src i k dst).get j = src.get j := by
  intro k
  induction k with
  | zero => intro i dst p hp h0 hk j h1 h2; omega
  | succ k ih =>
    intro i dst p hp h0 hk j h1 h2
    rw [copyLoop]
    rcases lt_or_ge i j with h | h
    · exact ih (i + 1) (dst.put i (src.get i)) p hp (by omega) (by rw [put_cap]; push_cast at hk; omega) j (by omega) (by push_cast at h2; omega)
    · have : j = i := by omega
      subst this
      rw [copyLoop_before src k (j + 1) (dst.put j (src.get j)) p hp j h0 (by omega) (by rw [put_cap]; push_cast at hk; omega), get_put_self]

/-! ### Contents -/

theorem contents_congr {s s' : St T} (h1 : cb s' - s'.top = cb s - s.top)
    (h2 : ∀ k : Nat, (k : Int) < cb s - s.top → (s'.heap s'.cur).get (s'.top + k) = (s.heap s.cur).get (s.top + k)) :
    contents s' = contents s := by
  unfold contents
  rw [h1]
  apply List.map_congr_left
  intro k hk
  exact h2 k (by have := List.mem_range.mp hk; omega)

theorem contents_pop {s s' : St T} (h1 : cb s = cb s' + 1) (h2 : s'.top = s.top) (h3 : s.top ≤ cb s') (h4 : s'.heap = s.heap)
    (h5 : s'.cur = s.cur) : contents s = contents s' ++ [(s.heap s.cur).get (cb s')] := by
  unfold contents
  rw [h1, h2, h4, h5, show (cb s' + 1 - s.top).toNat = (cb s' - s.top).toNat + 1 by omega, List.range_succ, List.map_append,
    List.map_singleton, show s.top + ((cb s' - s.top).toNat : Int) = cb s' by omega]

theorem contents_steal {s s' : St T} (h1 : cb s' = cb s) (h2 : s'.top = s.top + 1) (h3 : s.top < cb s) (h4 : s'.heap = s.heap)
    (h5 : s'.cur = s.cur) : contents s = (s.heap s.cur).get s.top :: contents s' := by
  unfold contents
  rw [h1, h2, h4, h5, show (cb s - s.top).toNat = (cb s - (s.top + 1)).toNat + 1 by omega, List.range_succ_eq_map, List.map_cons,
    List.map_map]
  congr 1
  · simp
  · apply List.map_congr_left
    intro k _
    simp only [Function.comp_apply]
    congr 1
    push_cast
    omega

theorem contents_nil {s : St T} (h : cb s ≤ s.top) : contents s = [] := by
  unfold contents
  rw [show (cb s - s.top).toNat = 0 by omega]; rfl


/-! ### Thieves -/

theorem thfOk_mono {s s' : St T} (ht : s'.top = s.top) (hc : s.top < cb s → s.top < cb s') (hf : s.fresh ≤ s'.fresh)
    (hg : s.top < cb s → ∀ a, a < s.fresh → (s.heap a).get s.top = (s.heap s.cur).get s.top →
      (s'.heap a).get s.top = (s.heap s.cur).get s.top)
    (hg' : s.top < cb s → (s'.heap s'.cur).get s.top = (s.heap s.cur).get s.top)
    (p : Thief T) (hp : ThfOk s p) : ThfOk s' p := by
  cases p with
  | s1 t => exact hp.trans ht.ge
  | s2 t =>
    refine ⟨hp.1.trans ht.ge, fun h => ?_⟩
    rw [ht] at h; subst h
    exact hc (hp.2 rfl)
  | s3 t a =>
    refine ⟨hp.1.trans ht.ge, hp.2.1.trans_le hf, fun h => ?_⟩
    rw [ht] at h; subst h
    obtain ⟨h1, h2⟩ := hp.2.2 rfl
    exact ⟨hc h1, by rw [hg h1 a hp.2.1 h2, hg' h1]⟩
  | s4 t x =>
    refine ⟨hp.1.trans ht.ge, fun h => ?_⟩
    rw [ht] at h; subst h
    obtain ⟨h1, h2⟩ := hp.2 rfl
    exact ⟨hc h1, by rw [hg' h1, h2]⟩
  | _ => trivial

/-- Nothing about memory changed. -/
theorem thfOk_same {s s' : St T} (ht : s'.top = s.top) (hc : s.top < cb s → s.top < cb s') (hf : s'.fresh = s.fresh)
    (hh : s'.heap = s.heap) (hcur : s'.cur = s.cur) (p : Thief T) (hp : ThfOk s p) : ThfOk s' p :=
  thfOk_mono ht hc hf.ge (fun _ a _ h => by rw [hh]; exact h) (fun _ => by rw [hh, hcur]) p hp

theorem thfOk_top {s s' : St T} (ht : s.top < s'.top) (hf : s'.fresh = s.fresh) (p : Thief T) (hp : ThfOk s p) : ThfOk s' p := by
  cases p with
  | s1 t => exact le_trans hp ht.le
  | s2 t => exact ⟨hp.1.trans ht.le, fun h => by have := hp.1; omega⟩
  | s3 t a => exact ⟨hp.1.trans ht.le, by rw [hf]; exact hp.2.1, fun h => by have := hp.1; omega⟩
  | s4 t x => exact ⟨hp.1.trans ht.le, fun h => by have := hp.1; omega⟩
  | _ => trivial

theorem abs_eq {s s' : St T} (h1 : contents s' = contents s) (h2 : absOwn s' = absOwn s) (h3 : s'.thf = s.thf) :
    abs s = abs s' := by
  unfold abs; rw [h1, h2, h3]

theorem abs_thf {s : St T} {i : Nat} {p : Thief T} (h : absThf p = absThf (s.thf i)) :
    abs s = abs { s with thf := Function.update s.thf i p } := by
  unfold abs
  congr 1
  funext j
  by_cases hj : j = i
  · subst hj; simp [h]
  · simp [Function.update_of_ne hj]

theorem abs_thf' {s : St T} {i : Nat} {p : Thief T} :
    abs { s with thf := Function.update s.thf i p } = { abs s with thf := Function.update (abs s).thf i (absThf p) } := by
  unfold abs
  congr 1
  funext j
  by_cases hj : j = i
  · subst hj; simp
  · simp [Function.update_of_ne hj]

/-- A step of a thief that changes nothing shared. -/
theorem ok_thf {s : St T} (h : Ok s) {i : Nat} {p : Thief T} (hp : ThfOk s p) :
    Ok { s with thf := Function.update s.thf i p } := by
  refine ⟨h.top0, h.le, h.sz, h.fresh, h.pow, h.own, fun j => ?_⟩
  by_cases hj : j = i
  · subst hj; simp only [Function.update_self]; exact hp
  · simp only [Function.update_of_ne hj]; exact h.thf j

/-- A step of the owner that changes only its control point. -/
theorem ok_own {s : St T} (h : Ok s) {o : Own T} (hc : cb { s with own := o } = cb s) (ho : OwnOk { s with own := o }) :
    Ok { s with own := o } :=
  ⟨h.top0, by rw [hc]; exact h.le, by rw [hc]; exact h.sz, h.fresh, h.pow, ho,
    fun j => thfOk_same (s := s) (s' := { s with own := o }) rfl (fun h => by rw [hc]; exact h) rfl rfl rfl _ (h.thf j)⟩

theorem contents_own {s : St T} {o : Own T} (hc : cb { s with own := o } = cb s) :
    contents { s with own := o } = contents s := contents_congr (by rw [hc]) (fun _ _ => rfl)

theorem sim_step {s s' : St T} {e : Option (Ev T)} (h : Ok s) (st : Step s e s') : Ok s' ∧ Sim (abs s) e (abs s') := by
  cases st with
  | @callPush x ho =>
    have hc : cb { s with own := .push0 x } = cb s := by simp only [cb, ho]
    refine ⟨ok_own h hc trivial, Or.inl ?_⟩
    have : abs { s with own := .push0 x } = { abs s with own := .pushing x } := by
      simp only [abs, contents_own hc, absOwn]
    rw [this]
    exact Spec.Step.callPush (by simp [abs, absOwn, ho])
  | @push0 o ho =>
    have hc : cb { s with own := .push1 o s.bottom } = cb s := by simp only [cb, ho]
    exact ⟨ok_own h hc rfl, Or.inr ⟨rfl, abs_eq (contents_own hc) (by simp only [absOwn, ho]) rfl⟩⟩
  | @push1 o b ho =>
    have hc : cb { s with own := .push2 o b s.top } = cb s := by simp only [cb, ho]
    have hcb : cb s = s.bottom := by simp only [cb, ho]
    have hsz := h.sz
    have := h.own; simp only [OwnOk, ho] at this
    exact ⟨ok_own h hc ⟨this, h.top0, le_rfl, by show b - s.top ≤ ((s.heap s.cur).cap : Int); omega⟩,
      Or.inr ⟨rfl, abs_eq (contents_own hc) (by simp only [absOwn, ho]) rfl⟩⟩
  | @push2_room o b t ho hr =>
    have hc : cb { s with own := .push3 o b s.cur } = cb s := by simp only [cb, ho]
    have := h.own; simp only [OwnOk, ho] at this
    exact ⟨ok_own h hc ⟨this.1, rfl, by show b - s.top < ((s.heap s.cur).cap : Int); omega⟩,
      Or.inr ⟨rfl, abs_eq (contents_own hc) (by simp only [absOwn, ho]) rfl⟩⟩
  | @push2_full o b t junk ho hr =>
    have hown := h.own
    simp only [OwnOk, ho] at hown
    obtain ⟨hb, ht0, ht, hsz⟩ := hown
    obtain ⟨k, hk⟩ := h.pow
    have hcb : cb s = s.bottom := by simp only [cb, ho]
    have hle := h.le
    have hne : s.cur ≠ s.fresh := by have := h.fresh; omega
    have hfr := h.fresh
    have hold : ∀ (a : Nat) (x : Arr T), a < s.fresh → Function.update s.heap s.fresh x a = s.heap a :=
      fun a x ha => Function.update_of_ne (by omega) _ _
    have hcap0 : 0 < 2 ^ k := Nat.two_pow_pos k
    refine ⟨⟨h.top0, ?_, ?_, ?_, ?_, ?_, fun j => ?_⟩, Or.inr ⟨rfl, ?_⟩⟩
    · show s.top ≤ s.bottom; omega
    · show s.bottom - s.top ≤ ((Function.update s.heap s.fresh _ s.cur).cap : Int)
      rw [hold _ _ hfr]; have := h.sz; omega
    · show s.cur < s.fresh + 1; omega
    · show ∃ k, (Function.update s.heap s.fresh _ s.cur).cap = 2 ^ k
      rw [hold _ _ hfr]; exact h.pow
    · refine ⟨hb, ht0, ht, Nat.lt_succ_self _, hne.symm, ⟨k + 1, ?_⟩, ?_, ?_⟩
      · show (Function.update s.heap s.fresh _ s.fresh).cap = _
        rw [Function.update_self, copyLoop_cap, pow_succ, hk]; exact Nat.mul_comm _ _
      · show b - t < ((Function.update s.heap s.fresh _ s.fresh).cap : Int)
        rw [Function.update_self, copyLoop_cap]
        show b - t < ((2 * (s.heap s.cur).cap : Nat) : Int)
        omega
      · intro i h1 h2
        show (Function.update s.heap s.fresh _ s.fresh).get i = (Function.update s.heap s.fresh _ s.cur).get i
        rw [Function.update_self, hold _ _ hfr]
        exact copyLoop_get (s.heap s.cur) (b - t).toNat t ⟨2 * (s.heap s.cur).cap, junk⟩ (k + 1)
          (by show 2 * (s.heap s.cur).cap = _; rw [pow_succ, hk, Nat.mul_comm]) ht0
          (by show _ ≤ ((2 * (s.heap s.cur).cap : Nat) : Int); omega) i h1 (by omega)
    · exact thfOk_mono (s := s) (by rfl) (fun h => by rw [hcb] at h; exact h) (Nat.le_succ _)
        (fun _ a ha h => by show (Function.update s.heap s.fresh _ a).get _ = _; rw [hold _ _ ha]; exact h)
        (fun _ => by show (Function.update s.heap s.fresh _ s.cur).get _ = _; rw [hold _ _ hfr]) _ (h.thf j)
    · refine abs_eq (contents_congr ?_ ?_) ?_ rfl
      · show s.bottom - s.top = _; rw [hcb]
      · intro k _
        show (Function.update s.heap s.fresh _ s.cur).get _ = _
        rw [hold _ _ hfr]
      · simp only [absOwn, ho]
  | @push2r o b t n ho =>
    have hown := h.own
    simp only [OwnOk, ho] at hown
    obtain ⟨hb, ht0, ht, hn, hne, hpow, hsz, hag⟩ := hown
    have hcb : cb s = s.bottom := by simp only [cb, ho]
    have hle := h.le
    refine ⟨⟨h.top0, ?_, ?_, hn, hpow, ⟨hb, rfl, ?_⟩, fun j => ?_⟩, Or.inr ⟨rfl, ?_⟩⟩
    · show s.top ≤ s.bottom; omega
    · show s.bottom - s.top ≤ ((s.heap n).cap : Int); omega
    · show b - s.top < ((s.heap n).cap : Int); omega
    · exact thfOk_mono (s := s) (by rfl) (fun h => by rw [hcb] at h; exact h) (by exact le_rfl) (by intro _ a ha h; exact h)
        (by intro h; exact hag _ ht (by omega)) _ (h.thf j)
    · refine abs_eq (contents_congr ?_ ?_) ?_ rfl
      · show s.bottom - s.top = _; rw [hcb]
      · intro k hk
        exact hag (s.top + k) (by omega) (by omega)
      · simp only [absOwn, ho]
  | @push3 o b a ho =>
    have hown := h.own
    simp only [OwnOk, ho] at hown
    obtain ⟨hb, rfl, hsz⟩ := hown
    obtain ⟨k, hk⟩ := h.pow
    have hcb : cb s = s.bottom := by simp only [cb, ho]
    have hle := h.le
    have ht0 := h.top0
    have hlive : ∀ i, s.top ≤ i → i < b → ((s.heap s.cur).put b o).get i = (s.heap s.cur).get i :=
      fun i h1 h2 => get_put_ne hk o (by omega) h2 (by omega)
    refine ⟨⟨h.top0, ?_, ?_, h.fresh, ?_, ⟨hb, ?_, ?_⟩, fun j => ?_⟩, Or.inr ⟨rfl, ?_⟩⟩
    · show s.top ≤ s.bottom; omega
    · show s.bottom - s.top ≤ ((Function.update s.heap s.cur _ s.cur).cap : Int)
      rw [Function.update_self, put_cap]; omega
    · show ∃ k, (Function.update s.heap s.cur _ s.cur).cap = 2 ^ k
      rw [Function.update_self, put_cap]; exact h.pow
    · show (Function.update s.heap s.cur _ s.cur).get b = o
      rw [Function.update_self, get_put_self]
    · show b - s.top < ((Function.update s.heap s.cur _ s.cur).cap : Int)
      rw [Function.update_self, put_cap]; omega
    · refine thfOk_mono (s := s) (by rfl) (fun h => by rw [hcb] at h; exact h) (by exact le_rfl) ?_ ?_ _ (h.thf j)
      · intro hlt a ha hag
        show (Function.update s.heap s.cur _ a).get _ = _
        by_cases hac : a = s.cur
        · subst hac; rw [Function.update_self]; exact hlive _ le_rfl (by omega)
        · rw [Function.update_of_ne hac]; exact hag
      · intro hlt
        show (Function.update s.heap s.cur _ s.cur).get _ = _
        rw [Function.update_self]; exact hlive _ le_rfl (by omega)
    · refine abs_eq (contents_congr ?_ ?_) ?_ rfl
      · show s.bottom - s.top = _; rw [hcb]
      · intro k hk
        show (Function.update s.heap s.cur _ s.cur).get _ = _
        rw [Function.update_self]; exact hlive (s.top + k) (by omega) (by omega)
      · simp only [absOwn, ho]
  | @push4 o b ho =>
    have hown := h.own
    simp only [OwnOk, ho] at hown
    obtain ⟨hb, hg, hsz⟩ := hown
    have hcb : cb s = s.bottom := by simp only [cb, ho]
    have hle := h.le
    have hc' : cb { s with bottom := b + 1, own := .pushR } = b + 1 := rfl
    refine ⟨⟨h.top0, ?_, ?_, h.fresh, h.pow, trivial, fun j => ?_⟩, Or.inl ?_⟩
    · show s.top ≤ b + 1; omega
    · show b + 1 - s.top ≤ ((s.heap s.cur).cap : Int); omega
    · exact thfOk_same (s := s) (by rfl) (fun h => by rw [hc']; show s.top < b + 1; omega) (by rfl) (by rfl) (by rfl) _ (h.thf j)
    · have hpop := contents_pop (s := { s with bottom := b + 1, own := .pushR }) (s' := s) (by rw [hc', hcb, hb]) rfl
        (by show s.top ≤ _; omega) rfl rfl
      have : abs { s with bottom := b + 1, own := .pushR } = { abs s with d := (abs s).d ++ [o], own := .pushed } := by
        simp only [abs, hpop, hcb, hb, hg, absOwn]
      rw [this]
      exact Spec.Step.push (by simp [abs, absOwn, ho])
  | @retPush ho =>
    have hc : cb { s with own := .idle } = cb s := by simp only [cb, ho]
    refine ⟨ok_own h hc trivial, Or.inl ?_⟩
    have : abs { s with own := .idle } = { abs s with own := .idle } := by
      simp only [abs, contents_own hc, absOwn]
    rw [this]
    exact Spec.Step.retPush (by simp [abs, absOwn, ho])
  | @callPop ho =>
    have hc : cb { s with own := .pop0 } = cb s := by simp only [cb, ho]
    refine ⟨ok_own h hc trivial, Or.inl ?_⟩
    have : abs { s with own := .pop0 } = { abs s with own := .popping } := by
      simp only [abs, contents_own hc, absOwn]
    rw [this]
    exact Spec.Step.callPop (by simp [abs, absOwn, ho])
  | @pop0 ho =>
    have hc : cb { s with own := .pop1 (s.bottom - 1) s.cur } = cb s := by simp only [cb, ho]
    exact ⟨ok_own h hc ⟨by show s.bottom = _; omega, rfl⟩, Or.inr ⟨rfl, abs_eq (contents_own hc) (by simp only [absOwn, ho]) rfl⟩⟩
  | @pop1 b a ho =>
    have hown := h.own
    simp only [OwnOk, ho] at hown
    obtain ⟨hb, ha⟩ := hown
    have hcb : cb s = s.bottom := by simp only [cb, ho]
    have hc' : cb { s with bottom := b, own := .pop2 b a } = cb s := by rw [hcb, hb]; rfl
    refine ⟨⟨h.top0, by rw [hc']; exact h.le, by rw [hc']; exact h.sz, h.fresh, h.pow, ⟨rfl, ha⟩, fun j => ?_⟩, Or.inr ⟨rfl, ?_⟩⟩
    · exact thfOk_same (s := s) (by rfl) (fun h => by rw [hc']; exact h) (by rfl) (by rfl) (by rfl) _ (h.thf j)
    · exact abs_eq (contents_congr (by rw [hc']) (fun _ _ => rfl)) (by simp only [absOwn, ho]) rfl
  | @pop2 b a ho =>
    have hown := h.own
    simp only [OwnOk, ho] at hown
    obtain ⟨hb, ha⟩ := hown
    have hcb : cb s = b + 1 := by simp only [cb, ho]
    have hle := h.le
    have hsz := h.sz
    have hc' : cb { s with own := .pop3 b a s.top } = if s.top < b then b else b + 1 := rfl
    have hok : Ok { s with own := .pop3 b a s.top } := by
      refine ⟨h.top0, ?_, ?_, h.fresh, h.pow, ⟨hb, ha, le_rfl⟩, fun j => ?_⟩
      · rw [hc']; show s.top ≤ _; split <;> omega
      · rw [hc']; show _ - s.top ≤ ((s.heap s.cur).cap : Int); split <;> omega
      · exact thfOk_same (s := s) (by rfl) (fun h => by rw [hc']; split <;> omega) (by rfl) (by rfl) (by rfl) _ (h.thf j)
    refine ⟨hok, ?_⟩
    rcases lt_trichotomy s.top b with hlt | heq | hgt
    · left
      rw [if_pos hlt] at hc'
      have hpop := contents_pop (s := s) (s' := { s with own := .pop3 b a s.top }) (by rw [hc', hcb]) rfl
        (by rw [hc']; exact hlt.le) rfl rfl
      rw [hc'] at hpop
      have : abs { s with own := .pop3 b a s.top } =
          { abs s with d := contents { s with own := .pop3 b a s.top }, own := .popped (some ((s.heap s.cur).get b)) } := by
        simp only [abs, absOwn, if_pos hlt, ha]
      rw [this]
      exact Spec.Step.pop (by simp [abs, absOwn, ho]) hpop
    · right
      rw [if_neg (by omega)] at hc'
      refine ⟨rfl, abs_eq (contents_congr (by rw [hc', hcb]) (fun _ _ => rfl)) ?_ rfl⟩
      simp only [absOwn, ho, heq, if_neg (lt_irrefl b), if_true]
    · left
      rw [if_neg (by omega)] at hc'
      have he : contents s = [] := contents_nil (by rw [hcb]; omega)
      have : abs { s with own := .pop3 b a s.top } = { abs s with own := .popped none } := by
        have e1 : contents { s with own := .pop3 b a s.top } = contents s := contents_own (by rw [hc', hcb])
        simp only [abs, e1, absOwn, if_neg (show ¬ s.top < b by omega), if_neg (show ¬ s.top = b by omega)]
      rw [this]
      exact Spec.Step.popEmpty (by simp [abs, absOwn, ho]) he
  | @pop3_lt b a t ho hlt =>
    have hown := h.own
    simp only [OwnOk, ho] at hown
    have hc : cb { s with own := .popR (some ((s.heap a).get b)) } = cb s := by
      simp only [cb, ho, if_pos hlt]; exact hown.1
    exact ⟨ok_own h hc trivial, Or.inr ⟨rfl, abs_eq (contents_own hc) (by simp only [absOwn, ho, if_pos hlt]) rfl⟩⟩
  | @pop3_eq b a t ho heq =>
    have hown := h.own
    simp only [OwnOk, ho] at hown
    have hc : cb { s with own := .pop4 b t ((s.heap a).get b) } = cb s := by
      simp only [cb, ho, if_neg (show ¬ t < b by omega)]
    exact ⟨ok_own h hc ⟨hown.1, heq, by show b ≤ s.top; omega, by show _ = (s.heap s.cur).get b; rw [hown.2.1]⟩,
      Or.inr ⟨rfl, abs_eq (contents_own hc) (by simp only [absOwn, ho, if_neg (show ¬ t < b by omega), if_pos heq]) rfl⟩⟩
  | @pop3_gt b a t ho hgt =>
    have hown := h.own
    simp only [OwnOk, ho] at hown
    have hc : cb { s with own := .pop5 b none } = cb s := by
      simp only [cb, ho, if_neg (show ¬ t < b by omega)]
    have hcb : cb s = b + 1 := by simp only [cb, ho, if_neg (show ¬ t < b by omega)]
    have hle := h.le
    exact ⟨ok_own h hc ⟨hown.1, by show s.top = b + 1; omega⟩,
      Or.inr ⟨rfl, abs_eq (contents_own hc)
        (by simp only [absOwn, ho, if_neg (show ¬ t < b by omega), if_neg (show ¬ t = b by omega)]) rfl⟩⟩
  | @pop4_ok b t x ho htop =>
    have hown := h.own
    simp only [OwnOk, ho] at hown
    obtain ⟨hb, htb, hbt, hx⟩ := hown
    have hcb : cb s = b + 1 := by simp only [cb, ho]
    have hc' : cb { s with top := t + 1, own := .pop5 b (some x) } = b + 1 := rfl
    have ht0 := h.top0
    have hle := h.le
    have hsz := h.sz
    refine ⟨⟨?_, ?_, ?_, h.fresh, h.pow, ⟨hb, by show t + 1 = _; omega⟩, fun j => ?_⟩, Or.inl ?_⟩
    · show 0 ≤ t + 1; omega
    · rw [hc']; show t + 1 ≤ _; omega
    · rw [hc']; show _ - (t + 1) ≤ ((s.heap s.cur).cap : Int); omega
    · exact thfOk_top (s := s) (by show s.top < t + 1; omega) (by rfl) _ (h.thf j)
    · have e1 : contents s = [x] := by
        have := contents_steal (s := s) (s' := { s with top := t + 1, own := .pop5 b (some x) }) (by rw [hc', hcb])
          (by show t + 1 = _; omega) (by omega) rfl rfl
        rw [this, contents_nil (by rw [hc']; show b + 1 ≤ t + 1; omega), hx, htop, htb]
      have e2 : abs { s with top := t + 1, own := .pop5 b (some x) } = { abs s with d := [], own := .popped (some x) } := by
        simp only [abs, absOwn, contents_nil (s := { s with top := t + 1, own := .pop5 b (some x) })
          (by rw [hc']; show b + 1 ≤ t + 1; omega)]
      rw [e2]
      exact Spec.Step.pop (by simp [abs, absOwn, ho]) e1
  | @pop4_fail b t x ho htop =>
    have hown := h.own
    simp only [OwnOk, ho] at hown
    obtain ⟨hb, htb, hbt, hx⟩ := hown
    have hcb : cb s = b + 1 := by simp only [cb, ho]
    have hc : cb { s with own := .pop5 b none } = cb s := by simp only [cb, ho]
    have hle := h.le
    refine ⟨ok_own h hc ⟨hb, by show s.top = b + 1; omega⟩, Or.inl ?_⟩
    have he : contents s = [] := contents_nil (by rw [hcb]; omega)
    have : abs { s with own := .pop5 b none } = { abs s with own := .popped none } := by
      simp only [abs, contents_own hc, absOwn]
    rw [this]
    exact Spec.Step.popEmpty (by simp [abs, absOwn, ho]) he
  | @pop5 b r ho =>
    have hown := h.own
    simp only [OwnOk, ho] at hown
    have hcb : cb s = b + 1 := by simp only [cb, ho]
    have hc' : cb { s with bottom := b + 1, own := .popR r } = cb s := by rw [hcb]; rfl
    refine ⟨⟨h.top0, by rw [hc']; exact h.le, by rw [hc']; exact h.sz, h.fresh, h.pow, trivial, fun j => ?_⟩, Or.inr ⟨rfl, ?_⟩⟩
    · exact thfOk_same (s := s) (by rfl) (fun h => by rw [hc']; exact h) (by rfl) (by rfl) (by rfl) _ (h.thf j)
    · exact abs_eq (contents_congr (by rw [hc']) (fun _ _ => rfl)) (by simp only [absOwn, ho]) rfl
  | @retPop r ho =>
    have hc : cb { s with own := .idle } = cb s := by simp only [cb, ho]
    refine ⟨ok_own h hc trivial, Or.inl ?_⟩
    have : abs { s with own := .idle } = { abs s with own := .idle } := by
      simp only [abs, contents_own hc, absOwn]
    rw [this]
    exact Spec.Step.retPop (by simp [abs, absOwn, ho])
  | @callSteal i ht =>
    refine ⟨ok_thf h trivial, Or.inl ?_⟩
    rw [abs_thf']
    exact Spec.Step.callSteal (by simp [abs, absThf, ht])
  | @s0 i ht =>
    exact ⟨ok_thf h le_rfl, Or.inr ⟨rfl, abs_thf (by simp [absThf, ht])⟩⟩
  | @s1_lt i t ht hlt =>
    have h1 := h.thf i
    rw [ht] at h1
    refine ⟨ok_thf h ⟨h1, fun he => ?_⟩, Or.inr ⟨rfl, abs_thf (by simp [absThf, ht])⟩⟩
    have : s.bottom ≤ cb s := by
      have hown := h.own
      cases ho : s.own <;> simp only [OwnOk, ho] at hown <;> simp only [cb, ho] <;> first | omega | (split <;> omega)
    omega
  | @s1_ge i t ht hge =>
    refine ⟨ok_thf h trivial, Or.inl ?_⟩
    rw [abs_thf']
    exact Spec.Step.stealFail (by simp [abs, absThf, ht])
  | @s2 i t ht =>
    have h1 := h.thf i
    rw [ht] at h1
    exact ⟨ok_thf h ⟨h1.1, h.fresh, fun he => ⟨h1.2 he, rfl⟩⟩, Or.inr ⟨rfl, abs_thf (by simp [absThf, ht])⟩⟩
  | @s3 i t a ht =>
    have h1 := h.thf i
    rw [ht] at h1
    exact ⟨ok_thf h ⟨h1.1, fun he => h1.2.2 he⟩, Or.inr ⟨rfl, abs_thf (by simp [absThf, ht])⟩⟩
  | @s4_ok i t x ht htop =>
    have h1 := h.thf i
    rw [ht] at h1
    obtain ⟨-, h2⟩ := h1
    obtain ⟨hlt, hx⟩ := h2 htop.symm
    have hle := h.le
    have hsz := h.sz
    have ht0 := h.top0
    have hc' : cb { s with top := t + 1, thf := Function.update s.thf i (.sR (some x)) } = cb s := rfl
    have hown : OwnOk { s with top := t + 1, thf := Function.update s.thf i (.sR (some x)) } := by
      have hown := h.own
      cases ho : s.own <;> simp only [OwnOk, ho] at hown ⊢ <;> try trivial
      · exact ⟨hown.1, hown.2.1, by omega, hown.2.2.2⟩
      · obtain ⟨h1, h2, h3, h4, h5, h6, h7, h8⟩ := hown
        exact ⟨h1, h2, by omega, h4, h5, h6, h7, h8⟩
      · exact ⟨hown.1, hown.2.1, by omega⟩
      · exact ⟨hown.1, hown.2.1, by omega⟩
      · exact ⟨hown.1, hown.2.1, by omega⟩
      · exact ⟨hown.1, hown.2.1, by omega, hown.2.2.2⟩
      · simp only [cb, ho] at hlt; omega
    refine ⟨⟨?_, ?_, ?_, h.fresh, h.pow, hown, fun j => ?_⟩, Or.inl ?_⟩
    · show 0 ≤ t + 1; omega
    · rw [hc']; show t + 1 ≤ _; omega
    · rw [hc']; show _ - (t + 1) ≤ ((s.heap s.cur).cap : Int); omega
    · have hold : ThfOk { s with top := t + 1, thf := Function.update s.thf i (.sR (some x)) } (s.thf j) :=
        thfOk_top (s := s) (by show s.top < t + 1; omega) (by rfl) _ (h.thf j)
      by_cases hj : j = i
      · subst hj; simp only [Function.update_self]; trivial
      · simp only [Function.update_of_ne hj]; exact hold
    · have e1 := contents_steal (s := s) (s' := { s with top := t + 1, thf := Function.update s.thf i (.sR (some x)) }) hc'
        (by show t + 1 = _; omega) (by omega) rfl rfl
      rw [htop, ← hx] at e1
      have e2 : abs { s with top := t + 1, thf := Function.update s.thf i (.sR (some x)) } =
          { abs s with d := contents { s with top := t + 1, thf := Function.update s.thf i (.sR (some x)) },
                       thf := Function.update (abs s).thf i (.stolen (some x)) } := by
        have := congrArg Spec.St.thf (abs_thf' (s := s) (i := i) (p := .sR (some x)))
        simp only [abs, absThf] at this ⊢
        simp only [this]
        rfl
      rw [e2]
      exact Spec.Step.steal (by simp [abs, absThf, ht]) e1
  | @s4_fail i t x ht hne =>
    refine ⟨ok_thf h trivial, Or.inl ?_⟩
    rw [abs_thf']
    exact Spec.Step.stealFail (by simp [abs, absThf, ht])
  | @retSteal i r ht =>
    refine ⟨ok_thf h trivial, Or.inl ?_⟩
    rw [abs_thf']
    exact Spec.Step.retSteal (by simp [abs, absThf, ht])


theorem ok_init (k : Nat) (junk : Nat → T) : Ok (Wsq.init k junk) :=
  ⟨le_rfl, le_rfl, by simp [cb, Wsq.init], Nat.one_pos, ⟨k, rfl⟩, trivial, fun _ => trivial⟩

theorem abs_init (k : Nat) (junk : Nat → T) : abs (Wsq.init k junk) = Spec.init := by
  simp [abs, contents, cb, absOwn, absThf, Wsq.init, Spec.init]

theorem run_abs {k : Nat} {junk : Nat → T} {tr : List (Ev T)} {s : St T} (r : Run (Wsq.init k junk) tr s) :
    Ok s ∧ Spec.Run Spec.init tr (abs s) := by
  induction r with
  | nil => exact ⟨ok_init k junk, by rw [abs_init]; exact .nil⟩
  | tau r st ih =>
    obtain ⟨h1, h2⟩ := ih
    obtain ⟨h3, h4⟩ := sim_step h1 st
    refine ⟨h3, ?_⟩
    rcases h4 with h4 | ⟨-, h4⟩
    · exact .tau h2 h4
    · rw [← h4]; exact h2
  | vis r st ih =>
    obtain ⟨h1, h2⟩ := ih
    obtain ⟨h3, h4⟩ := sim_step h1 st
    refine ⟨h3, ?_⟩
    rcases h4 with h4 | ⟨h4, -⟩
    · exact .vis h2 h4
    · cases h4

/-- **C42.** Linearizability: whatever the interleaving of the owner's `push`/`pop` and any number of thieves'
`steal`, the calls and returns seen are those of a double-ended queue whose operations each take effect
atomically between call and return. -/
theorem C42_linearizable (k : Nat) (junk : Nat → T) (tr : List (Ev T)) (s : St T) (r : Run (Wsq.init k junk) tr s) :
    ∃ a, Spec.Run Spec.init tr a := ⟨_, (run_abs r).2⟩

/-! ### Nothing lost, nothing twice -/

/-- The values passed to `push` in a trace. -/
def pushedOf : List (Ev T) → Multiset T
  | [] => 0
  | .callPush x :: tr => {x} + pushedOf tr
  | _ :: tr => pushedOf tr

/-- The values returned by `pop` and `steal` in a trace. -/
def takenOf : List (Ev T) → Multiset T
  | [] => 0
  | .retPop (some x) :: tr => {x} + takenOf tr
  | .retSteal _ (some x) :: tr => {x} + takenOf tr
  | _ :: tr => takenOf tr

theorem pushedOf_append (l1 l2 : List (Ev T)) : pushedOf (l1 ++ l2) = pushedOf l1 + pushedOf l2 := by
  induction l1 with
  | nil => simp [pushedOf]
  | cons e l ih =>
    cases e <;> simp only [List.cons_append, pushedOf, ih]
    rw [add_assoc]

theorem takenOf_append (l1 l2 : List (Ev T)) : takenOf (l1 ++ l2) = takenOf l1 + takenOf l2 := by
  induction l1 with
  | nil => simp [takenOf]
  | cons e l ih =>
    cases e with
    | retPop r => cases r <;> simp only [List.cons_append, takenOf, ih]; rw [add_assoc]
    | retSteal i r => cases r <;> simp only [List.cons_append, takenOf, ih]; rw [add_assoc]
    | _ => simp only [List.cons_append, takenOf, ih]

def heldT : Spec.Thief T → Multiset T
  | .stolen (some x) => {x}
  | _ => 0

def heldO : Spec.Own T → Multiset T
  | .pushing x => {x}
  | .popped (some x) => {x}
  | _ => 0

def Bal (tr : List (Ev T)) (a : Spec.St T) : Prop :=
  ∃ F : Finset Nat, (∀ i, i ∉ F → heldT (a.thf i) = 0) ∧
    pushedOf tr = takenOf tr + (a.d : Multiset T) + heldO a.own + ∑ i ∈ F, heldT (a.thf i)

/-- One thief at a time. -/
theorem Bal.at {tr : List (Ev T)} {a : Spec.St T} (h : Bal tr a) (i : Nat) :
    ∃ F : Finset Nat, i ∉ F ∧ (∀ j, j ∉ insert i F → heldT (a.thf j) = 0) ∧
      pushedOf tr = takenOf tr + (a.d : Multiset T) + heldO a.own + (heldT (a.thf i) + ∑ j ∈ F, heldT (a.thf j)) := by
  obtain ⟨F, h1, h2⟩ := h
  by_cases hi : i ∈ F
  · refine ⟨F.erase i, Finset.notMem_erase _ _, by rw [Finset.insert_erase hi]; exact h1, ?_⟩
    rw [Finset.add_sum_erase F (fun j => heldT (a.thf j)) hi]; exact h2
  · refine ⟨F, hi, fun j hj => h1 j (fun hf => hj (Finset.mem_insert_of_mem hf)), ?_⟩
    rw [h1 i hi, zero_add]; exact h2

theorem Bal.thf {tr : List (Ev T)} {a : Spec.St T} (h : Bal tr a) (i : Nat) (p : Spec.Thief T) (tr' : List (Ev T)) (d' : List T)
    (hb : ∀ X : Multiset T, pushedOf tr = takenOf tr + (a.d : Multiset T) + heldO a.own + (heldT (a.thf i) + X) →
      pushedOf tr' = takenOf tr' + (d' : Multiset T) + heldO a.own + (heldT p + X)) :
    Bal tr' { a with d := d', thf := Function.update a.thf i p } := by
  obtain ⟨F, h1, h2, h3⟩ := h.at i
  refine ⟨insert i F, fun j hj => ?_, ?_⟩
  · have hji : j ≠ i := fun h => hj (h ▸ Finset.mem_insert_self _ _)
    simp only [Function.update_of_ne hji]; exact h2 j hj
  · rw [Finset.sum_insert h1]
    simp only [Function.update_self]
    rw [Finset.sum_congr rfl (g := fun j => heldT (a.thf j)) (fun j hj => by
      have hji : j ≠ i := by rintro rfl; exact h1 hj
      rw [Function.update_of_ne hji])]
    exact hb _ h3

theorem Bal.own {tr : List (Ev T)} {a : Spec.St T} (h : Bal tr a) (o : Spec.Own T) (tr' : List (Ev T)) (d' : List T)
    (hb : ∀ X : Multiset T, pushedOf tr = takenOf tr + (a.d : Multiset T) + heldO a.own + X →
      pushedOf tr' = takenOf tr' + (d' : Multiset T) + heldO o + X) :
    Bal tr' { a with d := d', own := o } := by
  obtain ⟨F, h1, h2⟩ := h
  exact ⟨F, h1, hb _ h2⟩

theorem coe_append' (d : List T) (x : T) : ((d ++ [x] : List T) : Multiset T) = (d : Multiset T) + {x} := by
  rw [← Multiset.coe_add]; rfl

theorem coe_cons' (d : List T) (x : T) : ((x :: d : List T) : Multiset T) = {x} + (d : Multiset T) := by
  rw [← Multiset.cons_coe, ← Multiset.singleton_add]

theorem bal_step {tr : List (Ev T)} {a a' : Spec.St T} {e : Option (Ev T)} (h : Bal tr a) (st : Spec.Step a e a') :
    Bal (tr ++ e.toList) a' := by
  cases st with
  | @callPush x ho =>
    refine h.own _ _ a.d (fun X hX => ?_)
    simp only [Option.toList, pushedOf_append, takenOf_append, pushedOf, takenOf, ho, heldO] at hX ⊢
    rw [hX]; abel
  | @push x ho =>
    refine h.own _ _ _ (fun X hX => ?_)
    simp only [Option.toList, List.append_nil, ho, heldO, coe_append'] at hX ⊢
    rw [hX]; abel
  | @retPush ho =>
    refine h.own _ _ a.d (fun X hX => ?_)
    simp only [Option.toList, pushedOf_append, takenOf_append, pushedOf, takenOf, ho, heldO] at hX ⊢
    rw [hX]; abel
  | @callPop ho =>
    refine h.own _ _ a.d (fun X hX => ?_)
    simp only [Option.toList, pushedOf_append, takenOf_append, pushedOf, takenOf, ho, heldO] at hX ⊢
    rw [hX]; abel
  | @pop d x ho hd =>
    refine h.own _ _ _ (fun X hX => ?_)
    simp only [Option.toList, List.append_nil, ho, heldO, hd, coe_append'] at hX ⊢
    rw [hX]; abel
  | @popEmpty ho hd =>
    refine h.own _ _ a.d (fun X hX => ?_)
    simp only [Option.toList, List.append_nil, ho, heldO] at hX ⊢
    exact hX
  | @retPop r ho =>
    refine h.own _ _ a.d (fun X hX => ?_)
    cases r <;> simp only [Option.toList, pushedOf_append, takenOf_append, pushedOf, takenOf, ho, heldO] at hX ⊢ <;>
      (rw [hX]; abel)
  | @callSteal i ht =>
    refine h.thf i _ _ a.d (fun X hX => ?_)
    simp only [Option.toList, pushedOf_append, takenOf_append, pushedOf, takenOf, ht, heldT] at hX ⊢
    rw [hX]; abel
  | @steal i x d ht hd =>
    refine h.thf i _ _ _ (fun X hX => ?_)
    simp only [Option.toList, List.append_nil, ht, heldT, hd, coe_cons'] at hX ⊢
    rw [hX]; abel
  | @stealFail i ht =>
    refine h.thf i _ _ a.d (fun X hX => ?_)
    simp only [Option.toList, List.append_nil, ht, heldT] at hX ⊢
    exact hX
  | @retSteal i r ht =>
    refine h.thf i _ _ a.d (fun X hX => ?_)
    cases r <;> simp only [Option.toList, pushedOf_append, takenOf_append, pushedOf, takenOf, ht, heldT] at hX ⊢ <;>
      (rw [hX]; abel)

theorem bal_run {tr : List (Ev T)} {a : Spec.St T} (r : Spec.Run Spec.init tr a) : Bal tr a := by
  induction r with
  | nil => exact ⟨∅, fun _ _ => rfl, by simp [pushedOf, takenOf, Spec.init, heldO]⟩
  | tau r st ih => have := bal_step ih st; simpa using this
  | vis r st ih => exact bal_step ih st

/-- **C42.** At most once: in every run, at every moment, the values returned by `pop` and `steal` are among
the pushed ones, with multiplicity. -/
theorem C42_at_most_once (k : Nat) (junk : Nat → T) (tr : List (Ev T)) (s : St T) (r : Run (Wsq.init k junk) tr s) :
    takenOf tr ≤ pushedOf tr := by
  obtain ⟨F, -, h⟩ := bal_run (run_abs r).2
  rw [h, add_assoc, add_assoc]
  exact Multiset.le_add_right _ _

/-- **C42.** Nothing is lost: when no operation is in progress, what was pushed is what was returned plus what
is in the cells from `top` to `bottom`. -/
theorem C42_none_lost (k : Nat) (junk : Nat → T) (tr : List (Ev T)) (s : St T) (r : Run (Wsq.init k junk) tr s)
    (ho : s.own = .idle) (ht : ∀ i, s.thf i = .idle) :
    pushedOf tr = takenOf tr +
      (((List.range (s.bottom - s.top).toNat).map fun (j : Nat) => (s.heap s.cur).get (s.top + j) : List T) : Multiset T) := by
  obtain ⟨F, -, h⟩ := bal_run (run_abs r).2
  have e1 : ∀ i, heldT ((abs s).thf i) = 0 := fun i => by simp [abs, ht i, absThf, heldT]
  have e2 : heldO (abs s).own = 0 := by simp [abs, absOwn, ho, heldO]
  rw [h, e2, Finset.sum_eq_zero (fun i _ => e1 i), add_zero, add_zero]
  simp only [abs, contents, cb, ho]


/-- A run in which the queue of capacity 1 grows, thief 3 takes the first item while the owner takes the
second. -/
theorem wsq_demo : ∃ s : St Nat, Run (Wsq.init 0 (fun _ => 0))
    ([] ++ [.callPush 7] ++ [.retPush] ++ [.callPush 8] ++ [.retPush] ++ [.callSteal 3] ++ [.callPop] ++ [.retPop (some 8)] ++
      [.retSteal 3 (some 7)]) s ∧ s.own = .idle ∧ (∀ i, s.thf i = .idle) := by
  have r := Run.nil (s := Wsq.init 0 (fun _ => 0))
  have r := Run.vis r (Step.callPush (x := 7) rfl)
  have r := Run.tau r (Step.push0 rfl)
  have r := Run.tau r (Step.push1 rfl)
  have r := Run.tau r (Step.push2_room rfl (by decide))
  have r := Run.tau r (Step.push3 rfl)
  have r := Run.tau r (Step.push4 rfl)
  have r := Run.vis r (Step.retPush rfl)
  have r := Run.vis r (Step.callPush (x := 8) rfl)
  have r := Run.tau r (Step.push0 rfl)
  have r := Run.tau r (Step.push1 rfl)
  have r := Run.tau r (Step.push2_full (junk := fun _ => 0) rfl (by decide))
  have r := Run.tau r (Step.push2r rfl)
  have r := Run.tau r (Step.push3 rfl)
  have r := Run.tau r (Step.push4 rfl)
  have r := Run.vis r (Step.retPush rfl)
  have r := Run.vis r (Step.callSteal (i := 3) rfl)
  have r := Run.tau r (Step.s0 (i := 3) rfl)
  have r := Run.vis r (Step.callPop rfl)
  have r := Run.tau r (Step.pop0 rfl)
  have r := Run.tau r (Step.s1_lt (i := 3) rfl (by decide))
  have r := Run.tau r (Step.pop1 rfl)
  have r := Run.tau r (Step.s2 (i := 3) rfl)
  have r := Run.tau r (Step.pop2 rfl)
  have r := Run.tau r (Step.s3 (i := 3) rfl)
  have r := Run.tau r (Step.pop3_lt rfl (by decide))
  have r := Run.tau r (Step.s4_ok (i := 3) rfl rfl)
  have r := Run.vis r (Step.retPop rfl)
  have r := Run.vis r (Step.retSteal (i := 3) rfl)
  refine ⟨_, r, rfl, fun i => ?_⟩
  by_cases h : i = 3
  · subst h; rfl
  · simp [Function.update_of_ne h, Wsq.init]

end QDD.Props
