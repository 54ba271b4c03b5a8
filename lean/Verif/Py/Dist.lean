import Verif.Py.Trip
/-!
# Shots of a circuit executed with measurements; sampling a final state
-/

set_option linter.unusedSectionVars false
set_option linter.unusedVariables false
set_option linter.unusedSimpArgs false

namespace QDD.Py
open Spec Api Gate Finset Props Client

variable {sqrt : ℝ → ℝ} {α : Type} {T : Option α → Prop}

theorem expect_const_mul (n : Nat) (c : ℝ) (φ : (Nat → Bool) → ℝ) : ∀ (xs : List Inst) (f : Nat → CR) (val : Nat → Bool),
    expect n (fun v => c * φ v) xs f val = c * expect n φ xs f val := by
  intro xs
  induction xs with
  | nil => intro f val; show nrm n f * (c * φ val) = c * (nrm n f * φ val); ring
  | cons x xs ih =>
    intro f val
    unfold expect
    split
    · rcases hop : x.op with ⟨g, ctl⟩ | _ | ⟨hd, k, M⟩ | _ | _ | _ | _ <;> dsimp only
      · cases x.oper n with
        | none => simp
        | some A => exact ih _ _
      · cases x.oper n with
        | none => simp
        | some A => exact ih _ _
      · cases x.oper n with
        | none => simp
        | some A => exact ih _ _
      · exact ih _ _
      · rw [ih, ih]; ring
      · rw [ih, ih]; ring
      · cases x.oper n with
        | none => simp
        | some A => exact ih _ _
    · exact ih _ _

/-- The key of a shot. -/
def keyOf (nc : Nat) (val : Nat → Bool) : List Bool := ((List.range nc).map val).reverse

theorem keyOf_look {val : List Bool} {nc : Nat} (h : val.length = nc) : keyOf nc (look val) = val.reverse := by
  unfold keyOf
  congr 1
  apply List.ext_getElem
  · simp [h]
  · intro i h1 h2
    simp [look, List.getD_eq_getElem?_getD, List.getElem?_eq_getElem h2]

theorem nrm_zeroState (n : Nat) : nrm n zeroState = 1 := by
  unfold nrm zeroState
  rw [Finset.sum_eq_single 0]
  · simp [Cx.mag2]
  · intro i _ h; rw [if_neg h]; simp [Cx.mag2]
  · intro h; exact absurd (mem_range.2 (Nat.two_pow_pos n)) h

/-- `makeZeroState(n)`. -/
theorem zero_good {n : Nat} (h0 : 0 < n) (hn : n ≤ NQUBITS) {ms : List (Mat ℝ)} {h : Heap ℝ} (hms : ∃ tl, h.ms = ms ++ tl) :
    Good n ms (h.addV (basis n 0)) ((h.addV (basis n 0)).vs.length - 1) zeroState := by
  refine ⟨h0, hn, ?_, nrm_zeroState n, hms⟩
  unfold Heap.addV
  rw [List.length_append, List.length_singleton, Nat.add_sub_cancel]
  simp [basis, zeroState]
  rfl

/-- One trip with measurements. -/
theorem trip_meets (hsq : ∀ x, 0 ≤ x → sqrt x * sqrt x = x) {c : Circ} {ms : List (Mat ℝ)} (h0 : 0 < c.nq) (hn : c.nq ≤ NQUBITS)
    (hf : ∀ x ∈ c.data, Fine c.nq c.nc ms x) {φ : (Nat → Bool) → ℝ} {k : Loc → Client α} (pc : List ℝ)
    (hk : ∀ (s : Loc) h f, s.val.length = c.nc → Good c.nq ms h s.cur f → Meets sqrt (k s) h T (φ (look s.val)))
    {h : Heap ℝ} (hms : ∃ tl, h.ms = ms ++ tl) :
    Meets sqrt (trip c false true pc k) h T (expect c.nq φ c.data zeroState (fun _ => false)) := by
  unfold trip
  refine Meets.call (h1 := h.addV (basis c.nq 0)) (o := .unit) ⟨h0, hn⟩ rfl ?_
  have := insts_meets hsq hk c.data hf ⟨(h.addV (basis c.nq 0)).vs.length - 1, List.replicate c.nc false, pc⟩ _ _
    (by simp) (zero_good h0 hn hms)
  have hl : look (List.replicate c.nc false) = fun _ => false := by
    funext i
    unfold look
    rw [List.getD_eq_getElem?_getD, List.getElem?_replicate]
    split <;> rfl
  rw [← hl]
  exact this

open Classical in
/-- All shots: they are independent and each has the distribution of the circuit. -/
theorem shotLoop_meets (hsq : ∀ x, 0 ≤ x → sqrt x * sqrt x = x) {c : Circ} {ms : List (Mat ℝ)} (h0 : 0 < c.nq) (hn : c.nq ≤ NQUBITS)
    (hf : ∀ x ∈ c.data, Fine c.nq c.nc ms x) {k : Loc → List (List Bool) → Client α} {total : List (List Bool)}
    (hk : ∀ (s : Loc) h f mem, Good c.nq ms h s.cur f → mem.length = total.length →
      Meets sqrt (k s mem) h T (if mem = total then 1 else 0)) :
    ∀ (r : Nat) (acc : List (List Bool)), acc.length + r = total.length → ∀ (s : Loc) h, (∃ tl, h.ms = ms ++ tl) →
      (r = 0 → ∃ f, Good c.nq ms h s.cur f) →
      Meets sqrt (shotLoop c r s acc k) h T
        (if acc = total.take acc.length then ((total.drop acc.length).map c.prob).prod else 0) := by
  intro r
  induction r with
  | zero =>
    intro acc hl s h hms hgood
    obtain ⟨f, hg⟩ := hgood rfl
    have := hk s h f acc hg (by omega)
    have e : acc.length = total.length := by omega
    rw [e, List.take_length, List.drop_length]
    exact this
  | succ r ih =>
    intro acc hl s h hms _
    unfold shotLoop
    have hlt : acc.length < total.length := by omega
    have hφ := trip_meets hsq h0 hn hf (h := h) (List.replicate c.nc 0) (T := T)
      (φ := fun val => (if acc = total.take acc.length then ((total.drop (acc.length + 1)).map c.prob).prod else 0) *
        (if total[acc.length] = keyOf c.nc val then 1 else 0))
      (k := fun s => shotLoop c r s (acc ++ [s.val.reverse]) k) (by
        intro s h' f' hl' hg'
        have := ih (acc ++ [s.val.reverse]) (by rw [List.length_append, List.length_singleton]; omega) s h' hg'.ms
          (fun _ => ⟨f', hg'⟩)
        refine cast (congrArg _ ?_) this
        have htk : total.take (acc.length + 1) = total.take acc.length ++ [total[acc.length]] := by
          rw [List.take_add_one, List.getElem?_eq_getElem hlt]; rfl
        rw [List.length_append, List.length_singleton, htk, keyOf_look hl']
        by_cases h1 : acc = total.take acc.length
        · by_cases h2 : total[acc.length] = s.val.reverse
          · rw [if_pos h1, if_pos h2, if_pos (by rw [← h1, h2]), mul_one]
          · rw [if_pos h1, if_neg h2, if_neg ?_, mul_zero]
            intro e
            rw [← h1] at e
            have := List.append_cancel_left e
            exact h2 (by simpa using this.symm)
        · rw [if_neg h1, zero_mul, if_neg]
          intro e
          exact h1 (List.append_inj_left e (by simp; omega)))
      hms
    rw [expect_const_mul] at hφ
    refine cast (congrArg _ ?_) hφ
    rw [List.drop_eq_getElem_cons hlt, List.map_cons, List.prod_cons]
    have : c.prob total[acc.length] = expect c.nq (fun val => if total[acc.length] = keyOf c.nc val then 1 else 0) c.data
        zeroState fun _ => false := rfl
    rw [this]
    split
    · ring
    · rw [zero_mul]

/-! ## Sampling -/

theorem sample_shift (d : Nat → ℝ) : ∀ (j t : Nat) (f : Nat → CR), sample d j (t + 1) f = sample (fun u => d (u + 1)) j t f := by
  intro j
  induction j with
  | zero => intro t f; rfl
  | succ j ih => intro t f; unfold sample; rw [ih, ih]

theorem drawN_meets : ∀ (j : Nat) {f : Nat → CR} (hp : 0 < nrm j f) {G : Nat → ℝ} {k : List ℝ → Client α} {h : Heap ℝ}
    (hk : ∀ us : List ℝ, us.length = j → Unit01 us → Meets sqrt (k us) h T (G (sample (fun t => us.getD t 0) j 0 f))),
    Meets sqrt (drawN j k) h T (∑ x ∈ range (2 ^ j), (f x).mag2 / nrm j f * G x) := by
  intro j
  induction j with
  | zero =>
    intro f hp G k h hk
    have := hk [] rfl (by intro u hu; cases hu)
    have hn : nrm 0 f = (f 0).mag2 := by simp [nrm]
    rw [hn] at hp ⊢
    simp only [pow_zero, Finset.sum_range_one, div_self hp.ne', one_mul]
    exact this
  | succ j ih =>
    intro f hp G k h hk
    have hA0 := nrm_nonneg j f
    have hB0 := nrm_nonneg j fun i => f (2 ^ j + i)
    have hsum : nrm (j + 1) f = nrm j f + nrm j fun i => f (2 ^ j + i) := sum_two_pow_succ fun i => (f i).mag2
    have hval : ∀ (u : ℝ) (us : List ℝ), sample (fun t => (u :: us).getD t 0) (j + 1) 0 f =
        if u < nrm j f / nrm (j + 1) f then sample (fun t => us.getD t 0) j 0 f
        else 2 ^ j + sample (fun t => us.getD t 0) j 0 fun i => f (2 ^ j + i) := by
      intro u us
      rw [sample, sample_shift, sample_shift]
      rfl
    have hu : ∀ {u : ℝ} {us : List ℝ}, 0 ≤ u → u < 1 → Unit01 us → Unit01 (u :: us) := by
      intro u us h1 h2 h3 v hv
      rcases List.mem_cons.1 hv with rfl | hv
      · exact ⟨h1, h2⟩
      · exact h3 v hv
    have hp1 : nrm j f / nrm (j + 1) f ≤ 1 := (div_le_one hp).2 (by rw [hsum]; linarith)
    have := Meets.draw2 (sqrt := sqrt) (T := T) (h := h) (p := nrm j f / nrm (j + 1) f) (by positivity) hp1
      (k := fun u => drawN j fun us => k (u :: us))
      (A := ∑ x ∈ range (2 ^ j), (f x).mag2 / nrm j f * G x)
      (B := ∑ x ∈ range (2 ^ j), (f (2 ^ j + x)).mag2 / (nrm j fun i => f (2 ^ j + i)) * G (2 ^ j + x))
      (fun u hu0 hu1 hlt => by
        have hA : 0 < nrm j f := by
          rcases hA0.eq_or_lt with h | h
          · rw [← h, zero_div] at hlt; linarith
          · exact h
        refine ih hA fun us hl hus => ?_
        have := hk (u :: us) (by simp [hl]) (hu hu0 hu1 hus)
        rwa [hval, if_pos hlt] at this)
      (fun u hu0 hu1 hge => by
        have hB : 0 < nrm j fun i => f (2 ^ j + i) := by
          rcases hB0.eq_or_lt with h | h
          · rw [← h, add_zero] at hsum
            rw [hsum] at hp
            rw [hsum, div_self hp.ne'] at hge
            linarith
          · exact h
        refine ih (f := fun i => f (2 ^ j + i)) hB (G := fun x => G (2 ^ j + x)) fun us hl hus => ?_
        have := hk (u :: us) (by simp [hl]) (hu hu0 hu1 hus)
        rwa [hval, if_neg (not_lt.2 hge)] at this)
    refine cast (congrArg _ ?_) this
    rw [sum_two_pow_succ, Finset.mul_sum, Finset.mul_sum]
    congr 1
    · refine Finset.sum_congr rfl fun x hx => ?_
      rcases hA0.eq_or_lt with h | h
      · have := (Finset.sum_eq_zero_iff_of_nonneg (fun i _ => Cx.mag2_nonneg (f i))).1 h.symm x hx
        rw [this]; simp
      · field_simp
    · refine Finset.sum_congr rfl fun x hx => ?_
      have h1p : 1 - nrm j f / nrm (j + 1) f = (nrm j fun i => f (2 ^ j + i)) / nrm (j + 1) f := by
        rw [eq_div_iff hp.ne', sub_mul, div_mul_cancel₀ _ hp.ne', hsum]; ring
      rw [h1p]
      rcases hB0.eq_or_lt with h | h
      · have := (Finset.sum_eq_zero_iff_of_nonneg (f := fun i => (f (2 ^ j + i)).mag2) (fun i _ => Cx.mag2_nonneg _)).1 h.symm x hx
        rw [this]; simp
      · field_simp

end QDD.Py
