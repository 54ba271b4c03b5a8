import Verif.Py.Merge
import Verif.Props.Backend
/-!
# Pauli measurements

Specification of Pauli observables; the measurement circuits of qdd_estimator.py 285-296 and the sign of an outcome
(583-603, 626-643); the mean sign of the outcomes of a measurement is the expectation value.
-/

set_option linter.unusedSectionVars false
set_option linter.unusedVariables false
set_option linter.unusedSimpArgs false

namespace QDD.Py
open Spec Api Gate Finset Props Client

noncomputable section

/-! ## Specification -/

/-- A Pauli operator, qubit 0 first; `(z, x)` as in the symplectic representation: `(t, f)` is Z, `(f, t)` is X, `(t, t)`
is Y. -/
abbrev Pauli := List (Bool × Bool)

/-- The factor on qubit `q`. -/
def Pauli.on (p : Pauli) (q : Nat) : Bool × Bool := p.getD q (false, false)

/-- The Pauli matrices. -/
def sigma : Bool × Bool → Bool → Bool → CR
  | (false, false) => fun a b => if a = b then 1 else 0
  | (true, false) => fun a b => if a = b then (if a then -1 else 1) else 0
  | (false, true) => fun a b => if a = b then 0 else 1
  | (true, true) => fun a b => if a = b then 0 else if a then ⟨0, 1⟩ else ⟨0, -1⟩

/-- The tensor product of the factors. -/
def pauliMat (n : Nat) (p : Pauli) (i j : Nat) : CR := ∏ q ∈ range n, sigma (p.on q) (i.testBit q) (j.testBit q)

/-- `⟨f|P|f⟩` (which is real). -/
def expVal (n : Nat) (p : Pauli) (f : Nat → CR) : ℝ :=
  (∑ i ∈ range (2 ^ n), ∑ j ∈ range (2 ^ n), conj (f i) * (pauliMat n p i j * f j)).r

/-! ## Model -/

/-- Not the identity on qubit `q`. -/
def Pauli.acts (p : Pauli) (q : Nat) : Bool := (p.on q).1 || (p.on q).2

/-- `np.arange(n)[basis.z | basis.x]` (qdd_estimator.py 286). -/
def Pauli.support (b : Pauli) : List Nat := (List.range b.length).filter fun q => b.acts q

/-- The basis change of one qubit (qdd_estimator.py 289-292). -/
def rotI (b : Bool × Bool) (q : Nat) : List Inst :=
  if b.2 then (if b.1 then [⟨.gate .Sdg [], [q], [], none⟩] else []) ++ [⟨.gate .H [], [q], [], none⟩] else []

/-- The measurement circuit (qdd_estimator.py 285-293): the k-th measured qubit goes to clbit k. -/
def measI (b : Pauli) : List Nat → Nat → List Inst
  | [], _ => []
  | q :: qs, k => rotI (b.on q) q ++ mI q k :: measI b qs (k + 1)

/-- The circuit followed by the measurements of the basis (qdd_estimator.py 314-324). -/
def combine (c : Circ) (b : Pauli) : Circ := ⟨c.nq, b.support.length, c.phase, c.data ++ measI b b.support 0⟩

/-- The number of k such that the k-th measured qubit is in `p` and its outcome is 1:
`diag_inds & outcome` (qdd_estimator.py 596-600, 626-643); outcomes have the highest clbit first. -/
def hits (p : Pauli) : List Nat → List Bool → Nat
  | [], _ => 0
  | q :: qs, o => (if p.acts q && o.headD false then 1 else 0) + hits p qs o.tail

/-- `(-1) ** parity` (qdd_estimator.py 600). -/
def sgn (p b : Pauli) (key : List Bool) : ℝ := (-1) ^ (hits p b.support key.reverse)

end

/-! ## One-qubit operators -/

/-- A matrix on qubit `q`. -/
noncomputable def act (q : Nat) (m : Bool → Bool → CR) (f : Nat → CR) : Nat → CR := fun i =>
  m (i.testBit q) (i.testBit q) * f i + m (i.testBit q) (!i.testBit q) * f (i ^^^ 2 ^ q)

theorem bit_xor (i q c : Nat) : (i ^^^ 2 ^ q).testBit c = if c = q then !i.testBit c else i.testBit c := by
  rw [Nat.testBit_xor, Nat.testBit_two_pow]
  by_cases hc : c = q
  · subst hc; simp
  · rw [if_neg hc]; simp [Ne.symm hc]

theorem xor_twice (i q : Nat) : i ^^^ 2 ^ q ^^^ 2 ^ q = i := by rw [Nat.xor_assoc, Nat.xor_self, Nat.xor_zero]

theorem act_comm {q q' : Nat} (h : q ≠ q') (m m' : Bool → Bool → CR) (f : Nat → CR) :
    act q m (act q' m' f) = act q' m' (act q m f) := by
  funext i
  unfold act
  rw [bit_xor, bit_xor, if_neg (Ne.symm h), if_neg h, Nat.xor_assoc, Nat.xor_assoc, Nat.xor_comm (2 ^ q) (2 ^ q')]
  ring

/-- Product of 2×2 matrices. -/
noncomputable def mul2 (m m' : Bool → Bool → CR) : Bool → Bool → CR := fun a b => m a false * m' false b + m a true * m' true b

theorem act_mul (q : Nat) (m m' : Bool → Bool → CR) (f : Nat → CR) : act q m (act q m' f) = act q (mul2 m m') f := by
  funext i
  unfold act mul2
  rw [bit_xor, if_pos rfl, xor_twice, Bool.not_not]
  cases i.testBit q <;> simp only [Bool.not_true, Bool.not_false] <;> ring

theorem act_congr {n q : Nat} (hq : q < n) {m : Bool → Bool → CR} {f g : Nat → CR} (h : ∀ i < 2 ^ n, f i = g i) :
    ∀ i < 2 ^ n, act q m f i = act q m g i := by
  intro i hi
  unfold act
  rw [h i hi, h _ (flip_lt hq hi)]

theorem app_gate1 {n q : Nat} (hq : q < n) (g : Nat → Nat → CR) (f : Nat → CR) {i : Nat} (hi : i < 2 ^ n) :
    app n (Spec.gate1 n g q []) f i = act q (fun a b => g (bit a) (bit b)) f i := by
  have hlt := flip_lt hq hi
  have hne : i ≠ i ^^^ 2 ^ q := by
    intro h
    have := congrArg (·.testBit q) h
    simp only [bit_xor, if_true] at this
    cases h' : i.testBit q <;> rw [h'] at this <;> cases this
  have hz : ∀ j < 2 ^ n, j ≠ i → j ≠ i ^^^ 2 ^ q → Spec.gate1 n g q [] i j = 0 := by
    intro j hj h1 h2
    unfold Spec.gate1
    rw [if_neg]
    intro hall
    have hhigh : ∀ c, n ≤ c → i.testBit c = j.testBit c := by
      intro c hc
      rw [Nat.testBit_lt_two_pow (lt_of_lt_of_le hi (Nat.pow_le_pow_right (by omega) hc)),
        Nat.testBit_lt_two_pow (lt_of_lt_of_le hj (Nat.pow_le_pow_right (by omega) hc))]
    by_cases hb : i.testBit q = j.testBit q
    · apply h1
      apply Nat.eq_of_testBit_eq
      intro c
      by_cases hc : c = q
      · rw [hc, hb]
      · by_cases hcn : c < n
        · exact (hall c hcn hc).symm
        · exact (hhigh c (by omega)).symm
    · apply h2
      apply Nat.eq_of_testBit_eq
      intro c
      rw [bit_xor]
      by_cases hc : c = q
      · rw [if_pos hc, hc]; revert hb; cases i.testBit q <;> cases j.testBit q <;> simp
      · rw [if_neg hc]
        by_cases hcn : c < n
        · exact (hall c hcn hc).symm
        · exact (hhigh c (by omega)).symm
  unfold app
  have := Finset.sum_subset (s₁ := {i, i ^^^ 2 ^ q}) (s₂ := range (2 ^ n)) (f := fun j => Spec.gate1 n g q [] i j * f j)
    (by
      intro x hx
      simp only [Finset.mem_insert, Finset.mem_singleton] at hx
      rcases hx with rfl | rfl
      · exact mem_range.2 hi
      · exact mem_range.2 hlt)
    (by
      intro x hx hnx
      simp only [Finset.mem_insert, Finset.mem_singleton, not_or] at hnx
      rw [hz x (mem_range.1 hx) hnx.1 hnx.2, zero_mul])
  rw [← this, Finset.sum_pair hne]
  have e1 : Spec.gate1 n g q [] i i = g (bit (i.testBit q)) (bit (i.testBit q)) := by
    unfold Spec.gate1
    rw [if_pos (fun _ _ _ => rfl), if_pos (by intro c hc; cases hc)]
  have e2 : Spec.gate1 n g q [] i (i ^^^ 2 ^ q) = g (bit (i.testBit q)) (bit (!i.testBit q)) := by
    unfold Spec.gate1
    rw [if_pos (fun b _ hb => by rw [bit_xor, if_neg hb]), if_pos (by intro c hc; cases hc), bit_xor, if_pos rfl]
  rw [e1, e2]
  rfl

/-! ## Lists of one-qubit operators -/

noncomputable def acts : List (Nat × (Bool → Bool → CR)) → (Nat → CR) → Nat → CR
  | [], f => f
  | (q, m) :: l, f => acts l (act q m f)

theorem acts_append (l l' : List (Nat × (Bool → Bool → CR))) (f : Nat → CR) : acts (l ++ l') f = acts l' (acts l f) := by
  induction l generalizing f with
  | nil => rfl
  | cons a l ih => exact ih _

theorem act_acts {q : Nat} {m : Bool → Bool → CR} : ∀ (l : List (Nat × (Bool → Bool → CR))), (∀ x ∈ l, x.1 ≠ q) → ∀ f,
    act q m (acts l f) = acts l (act q m f) := by
  intro l
  induction l with
  | nil => intro _ f; rfl
  | cons a l ih =>
    intro h f
    obtain ⟨q', m'⟩ := a
    show act q m (acts l (act q' m' f)) = acts l (act q' m' (act q m f))
    rw [ih (fun x hx => h x (by simp [hx])), act_comm (Ne.symm (h (q', m') (by simp)))]

theorem acts_acts {l' : List (Nat × (Bool → Bool → CR))} : ∀ (l : List (Nat × (Bool → Bool → CR))),
    (∀ x ∈ l, ∀ y ∈ l', y.1 ≠ x.1) → ∀ f, acts l (acts l' f) = acts l' (acts l f) := by
  intro l
  induction l with
  | nil => intro _ f; rfl
  | cons a l ih =>
    intro h f
    obtain ⟨q, m⟩ := a
    show acts l (act q m (acts l' f)) = acts l' (acts l (act q m f))
    rw [act_acts l' (h (q, m) (by simp)), ih fun x hx => h x (by simp [hx])]

theorem acts_congr {n : Nat} : ∀ (l : List (Nat × (Bool → Bool → CR))), (∀ x ∈ l, x.1 < n) → ∀ {f g : Nat → CR}, (∀ i < 2 ^ n, f i = g i) →
    ∀ i < 2 ^ n, acts l f i = acts l g i := by
  intro l
  induction l with
  | nil => intro _ f g h; exact h
  | cons a l ih =>
    intro hl f g h
    exact ih (fun x hx => hl x (by simp [hx])) (act_congr (hl a (by simp)) h)

/-- Orthonormal columns. -/
def Unit2 (m : Bool → Bool → CR) : Prop :=
  ∀ b b' : Bool, conj (m false b) * m false b' + conj (m true b) * m true b' = if b = b' then 1 else 0

theorem act_inner {n q : Nat} (hq : q < n) {m : Bool → Bool → CR} (hm : Unit2 m) (f g : Nat → CR) :
    ∑ i ∈ range (2 ^ n), conj (act q m f i) * act q m g i = ∑ i ∈ range (2 ^ n), conj (f i) * g i := by
  have hI : Isometry n (Spec.gate1 n (fun a b => m (a = 1) (b = 1)) q []) :=
    gate1_isometry hq (by intro c hc; cases hc) (by
      intro b b'
      have := hm b b'
      cases b <;> cases b' <;> simpa [bit] using this)
  rw [← inner_app hI f g]
  have e : ∀ f, ∀ i ∈ range (2 ^ n), app n (Spec.gate1 n (fun a b => m (a = 1) (b = 1)) q []) f i = act q m f i := by
    intro f i hi
    rw [app_gate1 hq _ f (mem_range.1 hi)]
    congr 1
    funext a b
    cases a <;> cases b <;> simp [bit]
  exact Finset.sum_congr rfl fun i hi => by rw [e f i hi, e g i hi]

theorem acts_inner {n : Nat} : ∀ (l : List (Nat × (Bool → Bool → CR))), (∀ x ∈ l, x.1 < n ∧ Unit2 x.2) → ∀ f g,
    ∑ i ∈ range (2 ^ n), conj (acts l f i) * acts l g i = ∑ i ∈ range (2 ^ n), conj (f i) * g i := by
  intro l
  induction l with
  | nil => intro _ f g; rfl
  | cons a l ih =>
    intro h f g
    obtain ⟨q, m⟩ := a
    have := h (q, m) (by simp)
    exact (ih (fun x hx => h x (by simp [hx])) _ _).trans (act_inner this.1 this.2 f g)

/-! ## The Pauli operator as a list of one-qubit operators -/

theorem prod_delta {n i j : Nat} (hi : i < 2 ^ n) (hj : j < 2 ^ n) :
    (∏ q ∈ range n, sigma (false, false) (i.testBit q) (j.testBit q)) = if i = j then 1 else 0 := by
  by_cases h : i = j
  · subst h
    rw [if_pos rfl]
    exact Finset.prod_eq_one fun q _ => by simp [sigma]
  · rw [if_neg h]
    have : ∃ q < n, i.testBit q ≠ j.testBit q := by
      by_contra hc
      push Not at hc
      apply h
      apply Nat.eq_of_testBit_eq
      intro c
      by_cases hcn : c < n
      · exact hc c hcn
      · rw [Nat.testBit_lt_two_pow (lt_of_lt_of_le hi (Nat.pow_le_pow_right (by omega) (by omega))),
          Nat.testBit_lt_two_pow (lt_of_lt_of_le hj (Nat.pow_le_pow_right (by omega) (by omega)))]
    obtain ⟨q, hq, hne⟩ := this
    exact Finset.prod_eq_zero (mem_range.2 hq) (by simp [sigma, hne])

theorem app_prod {n : Nat} (s : Nat → Bool × Bool) : ∀ (qs : List Nat), qs.Nodup → (∀ q ∈ qs, q < n) → ∀ (f : Nat → CR) i, i < 2 ^ n →
    app n (fun i j => ∏ q ∈ range n, sigma (if q ∈ qs then s q else (false, false)) (i.testBit q) (j.testBit q)) f i =
      acts (qs.map fun q => (q, sigma (s q))) f i := by
  intro qs
  induction qs with
  | nil =>
    intro _ _ f i hi
    unfold app
    simp only [List.not_mem_nil, if_false, List.map_nil, acts]
    rw [Finset.sum_eq_single i]
    · rw [prod_delta hi hi, if_pos rfl, one_mul]
    · intro j hj hne
      rw [prod_delta hi (mem_range.1 hj), if_neg (Ne.symm hne), zero_mul]
    · intro h; exact absurd (mem_range.2 hi) h
  | cons q0 qs ih =>
    intro hnd hlt f i hi
    have hq0 := hlt q0 (by simp)
    rw [List.nodup_cons] at hnd
    have ih := ih hnd.2 (fun q hq => hlt q (by simp [hq])) f
    rw [List.map_cons]
    show _ = acts _ (act q0 (sigma (s q0)) f) i
    rw [← act_acts _ (by
      intro x hx
      obtain ⟨q, hq, rfl⟩ := List.mem_map.1 hx
      rintro rfl
      exact hnd.1 hq)]
    unfold act
    rw [← ih i hi, ← ih _ (flip_lt hq0 hi)]
    unfold app
    rw [Finset.mul_sum, Finset.mul_sum, ← Finset.sum_add_distrib]
    refine Finset.sum_congr rfl fun j hj => ?_
    have hm : q0 ∈ range n := mem_range.2 hq0
    have hE : ∀ (i' : Nat), (∀ c, c ≠ q0 → i'.testBit c = i.testBit c) →
        (∏ q ∈ (range n).erase q0, sigma (if q ∈ qs then s q else (false, false)) (i'.testBit q) (j.testBit q)) =
        ∏ q ∈ (range n).erase q0, sigma (if q ∈ q0 :: qs then s q else (false, false)) (i.testBit q) (j.testBit q) := by
      intro i' hi'
      refine Finset.prod_congr rfl fun q hq => ?_
      have hne := (Finset.mem_erase.1 hq).1
      rw [hi' q hne]
      simp [hne]
    beta_reduce
    rw [← Finset.mul_prod_erase _ _ hm, ← Finset.mul_prod_erase _ _ hm, ← Finset.mul_prod_erase _ _ hm,
      hE i (fun _ _ => rfl), hE (i ^^^ 2 ^ q0) (fun c hc => by rw [bit_xor, if_neg hc]), if_pos (by simp), if_neg hnd.1,
      bit_xor, if_pos rfl]
    generalize (∏ q ∈ (range n).erase q0, sigma (if q ∈ q0 :: qs then s q else (false, false)) (i.testBit q) (j.testBit q)) = R
    cases i.testBit q0 <;> cases j.testBit q0 <;> simp [sigma] <;> ring

/-! ## Basis changes -/

/-- The matrices of the basis change. -/
noncomputable def rotA (b : Bool × Bool) (q : Nat) : List (Nat × (Bool → Bool → CR)) :=
  if b.2 then (if b.1 then [(q, fun a c => Gate.Sdagmat (bit a) (bit c))] else []) ++ [(q, fun a c => Gate.Hmat (bit a) (bit c))] else []

theorem rotA_qubit {b : Bool × Bool} {q : Nat} : ∀ x ∈ rotA b q, x.1 = q := by
  intro x hx
  unfold rotA at hx
  split at hx
  · split at hx <;> simp at hx
    · rcases hx with rfl | rfl <;> rfl
    · rw [hx]
  · simp at hx

theorem H_unit : Unit2 fun a c => (Gate.Hmat (bit a) (bit c) : CR) := by
  intro b b'
  have h := sqrt2sq
  cases b <;> cases b' <;> apply Cx.ext <;> simp [Gate.Hmat, Gate.g4, bit, conj, cS, cMS] <;> linarith

theorem Sdg_unit : Unit2 fun a c => (Gate.Sdagmat (bit a) (bit c) : CR) := by
  intro b b'
  cases b <;> cases b' <;> apply Cx.ext <;> simp [Gate.Sdagmat, Gate.g4, bit, conj, cOne, cZero, cMi]

theorem rotA_unit {n : Nat} {b : Bool × Bool} {q : Nat} (hq : q < n) : ∀ x ∈ rotA b q, x.1 < n ∧ Unit2 x.2 := by
  intro x hx
  refine ⟨by rw [rotA_qubit x hx]; exact hq, ?_⟩
  unfold rotA at hx
  split at hx
  · split at hx <;> simp at hx
    · rcases hx with rfl | rfl
      · exact Sdg_unit
      · exact H_unit
    · rw [hx]; exact H_unit
  · simp at hx

/-- The basis change turns the Pauli operator into Z. -/
theorem rotA_conj {b : Bool × Bool} (hb : b ≠ (false, false)) (q : Nat) (f : Nat → CR) :
    act q (sigma (true, false)) (acts (rotA b q) f) = acts (rotA b q) (act q (sigma b) f) := by
  obtain ⟨z, x⟩ := b
  have h := sqrt2sq
  cases x
  · cases z
    · exact absurd rfl hb
    · rfl
  · cases z
    · simp only [rotA, if_true, Bool.false_eq_true, if_false, List.nil_append, acts]
      rw [act_mul, act_mul]
      congr 1
      funext a c
      cases a <;> cases c <;> apply Cx.ext <;> simp [mul2, sigma, Gate.Hmat, Gate.g4, bit, cS, cMS]
    · simp only [rotA, if_true, List.cons_append, List.nil_append, acts]
      rw [act_mul, act_mul, act_mul, act_mul]
      congr 1
      funext a c
      cases a <;> cases c <;> apply Cx.ext <;>
        simp [mul2, sigma, Gate.Hmat, Gate.Sdagmat, Gate.g4, bit, cS, cMS, cOne, cZero, cMi]

/-- All basis changes. -/
noncomputable def rots (b : Pauli) (qs : List Nat) : List (Nat × (Bool → Bool → CR)) := qs.flatMap fun q => rotA (b.on q) q

theorem rots_qubit {b : Pauli} {qs : List Nat} : ∀ x ∈ rots b qs, x.1 ∈ qs := by
  intro x hx
  obtain ⟨q, hq, hx⟩ := List.mem_flatMap.1 hx
  rw [rotA_qubit x hx]; exact hq

theorem rots_conj {p b : Pauli} : ∀ (qs : List Nat), qs.Nodup → (∀ q ∈ qs, p.acts q = true → p.on q = b.on q) → ∀ f,
    acts ((qs.filter p.acts).map fun q => (q, sigma (true, false))) (acts (rots b qs) f) =
      acts (rots b qs) (acts ((qs.filter p.acts).map fun q => (q, sigma (p.on q))) f) := by
  intro qs
  induction qs with
  | nil => intro _ _ f; rfl
  | cons q qs ih =>
    intro hnd hcomp f
    rw [List.nodup_cons] at hnd
    have hne : ∀ (g : Nat → Bool × Bool), ∀ x ∈ (qs.filter p.acts).map fun q => (q, sigma (g q)), x.1 ≠ q := by
      intro g x hx
      obtain ⟨q', hq', rfl⟩ := List.mem_map.1 hx
      rintro rfl
      exact hnd.1 (List.mem_filter.1 hq').1
    have hne2 : ∀ x ∈ rots b qs, x.1 ≠ q := fun x hx h => hnd.1 (h ▸ rots_qubit x hx)
    have e : rots b (q :: qs) = rotA (b.on q) q ++ rots b qs := by simp [rots]
    have ih' := ih hnd.2 fun q' hq' => hcomp q' (by simp [hq'])
    have hsw : ∀ f, acts (rotA (b.on q) q) (acts ((qs.filter p.acts).map fun q => (q, sigma (p.on q))) f) =
        acts ((qs.filter p.acts).map fun q => (q, sigma (p.on q))) (acts (rotA (b.on q) q) f) :=
      acts_acts _ (fun x hx y hy => by rw [rotA_qubit x hx]; exact hne _ y hy)
    rw [e, acts_append, acts_append, List.filter_cons]
    by_cases hp : p.acts q = true
    · rw [if_pos hp, List.map_cons, List.map_cons]
      show acts _ (act q _ (acts (rots b qs) _)) = acts (rots b qs) (acts _ (acts _ (act q _ f)))
      rw [act_acts _ hne2, ih', hsw, ← hcomp q (by simp) hp, rotA_conj]
      intro h
      rw [Pauli.acts, h] at hp
      cases hp
    · rw [if_neg hp, ih', hsw]

/-! ## Outcomes -/

theorem act_Z (q : Nat) (f : Nat → CR) (i : Nat) : act q (sigma (true, false)) f i = (if i.testBit q then -1 else 1) * f i := by
  unfold act
  cases i.testBit q <;> simp [sigma]

/-- The number of listed qubits set in `i`. -/
def ones (i : Nat) (qs : List Nat) : Nat := qs.countP (i.testBit ·)

theorem acts_Z (i : Nat) : ∀ (qs : List Nat) (f : Nat → CR),
    acts (qs.map fun q => (q, sigma (true, false))) f i = (-1) ^ ones i qs * f i := by
  intro qs
  induction qs with
  | nil => intro f; show f i = _; rw [ones, List.countP_nil, pow_zero, one_mul]
  | cons q qs ih =>
    intro f
    show acts (qs.map _) (act q (sigma (true, false)) f) i = _
    rw [ih, act_Z, ones, ones, List.countP_cons]
    split
    · rw [pow_succ]; ring
    · simp

theorem pow_neg_one_r (k : Nat) : (((-1 : CR) ^ k).r = (-1) ^ k) ∧ ((-1 : CR) ^ k).i = 0 := by
  induction k with
  | zero => exact ⟨rfl, rfl⟩
  | succ k ih => rw [pow_succ, pow_succ, Cx.mul_r, Cx.mul_i, ih.1, ih.2]; simp

/-- The expectation value as a signed sum of probabilities in the rotated basis. -/
theorem expVal_rots {n : Nat} {p b : Pauli} (hl : b.length = n) (hp : p.length = n)
    (hcomp : ∀ q, p.acts q = true → p.on q = b.on q) (f : Nat → CR) :
    expVal n p f = ∑ i ∈ range (2 ^ n), (acts (rots b b.support) f i).mag2 * (-1) ^ ones i (b.support.filter p.acts) := by
  have hsup : ∀ q ∈ b.support, q < n := by
    intro q hq
    have := (List.mem_filter.1 hq).1
    rw [List.mem_range, hl] at this
    exact this
  have hnd : b.support.Nodup := List.Nodup.filter _ List.nodup_range
  have hsub : ∀ q ∈ b.support.filter p.acts, q < n := fun q hq => hsup q (List.mem_filter.1 hq).1
  have hmat : ∀ i < 2 ^ n, app n (pauliMat n p) f i = acts ((b.support.filter p.acts).map fun q => (q, sigma (p.on q))) f i := by
    intro i hi
    rw [← app_prod (fun q => p.on q) _ (hnd.filter _) hsub f i hi]
    unfold app pauliMat
    refine Finset.sum_congr rfl fun j hj => ?_
    congr 1
    refine Finset.prod_congr rfl fun q hq => ?_
    congr 1
    by_cases ha : p.acts q = true
    · rw [if_pos]
      refine List.mem_filter.2 ⟨List.mem_filter.2 ⟨by rw [List.mem_range, hl]; exact mem_range.1 hq, ?_⟩, ha⟩
      unfold Pauli.acts
      rw [← hcomp q ha]
      exact ha
    · rw [if_neg fun h => ha (List.mem_filter.1 h).2]
      unfold Pauli.acts at ha
      generalize p.on q = x at ha
      obtain ⟨x, y⟩ := x
      cases x <;> cases y <;> simp at ha ⊢
  unfold expVal
  have e1 : ∑ i ∈ range (2 ^ n), ∑ j ∈ range (2 ^ n), conj (f i) * (pauliMat n p i j * f j) =
      ∑ i ∈ range (2 ^ n), conj (f i) * acts ((b.support.filter p.acts).map fun q => (q, sigma (p.on q))) f i := by
    refine Finset.sum_congr rfl fun i hi => ?_
    rw [← hmat i (mem_range.1 hi), ← Finset.mul_sum]
    rfl
  have hu : ∀ x ∈ rots b b.support, x.1 < n ∧ Unit2 x.2 := by
    intro x hx
    obtain ⟨q, hq, hx⟩ := List.mem_flatMap.1 hx
    exact rotA_unit (hsup q hq) x hx
  rw [e1, ← acts_inner (n := n) _ hu, ← rots_conj _ hnd (fun q _ h => hcomp q h)]
  rw [sum_r]
  refine Finset.sum_congr rfl fun i _ => ?_
  rw [acts_Z]
  obtain ⟨h1, h2⟩ := pow_neg_one_r (ones i (b.support.filter p.acts))
  simp only [Cx.mul_r, Cx.mul_i, h1, h2, conj, Cx.mag2]
  ring

/-! ## The measurement circuit -/

theorem h_oper (n q : Nat) : (⟨.gate .H [], [q], [], none⟩ : Inst).oper n = some (Spec.gate1 n Gate.Hmat q []) := by
  show GName.oper .H n [] [q] = _
  rw [← built_eq n .H (by intro b hb; cases hb)]
  simp [built, tab1, controls]

theorem sdg_oper (n q : Nat) : (⟨.gate .Sdg [], [q], [], none⟩ : Inst).oper n = some (Spec.gate1 n Gate.Sdagmat q []) := by
  show GName.oper .Sdg n [] [q] = _
  rw [← built_eq n .Sdg (by intro b hb; cases hb)]
  simp [built, tab1, controls]

theorem evol_append (n : Nat) : ∀ (xs ys : List Inst) (f : Nat → CR), evol n (xs ++ ys) f = evol n ys (evol n xs f) := by
  intro xs
  induction xs with
  | nil => intro ys f; rfl
  | cons x xs ih =>
    intro ys f
    cases hA : x.oper n with
    | none => simp only [List.cons_append, evol, hA]; exact ih _ _
    | some A => simp only [List.cons_append, evol, hA]; exact ih _ _

theorem evol_rotI {n q : Nat} (hq : q < n) (b : Bool × Bool) (f : Nat → CR) : ∀ i < 2 ^ n, evol n (rotI b q) f i = acts (rotA b q) f i := by
  intro i hi
  obtain ⟨z, x⟩ := b
  cases x
  · rfl
  · cases z
    · simp only [rotI, rotA, if_true, Bool.false_eq_true, if_false, List.nil_append, acts, evol, h_oper]
      exact app_gate1 hq _ _ hi
    · simp only [rotI, rotA, if_true, List.cons_append, List.nil_append, acts, evol, h_oper, sdg_oper]
      rw [app_gate1 hq _ _ hi]
      exact act_congr hq (fun i hi => app_gate1 hq _ _ hi) i hi

theorem evol_measI {n : Nat} (b : Pauli) : ∀ (qs : List Nat) (k : Nat), (∀ q ∈ qs, q < n) → ∀ f, ∀ i < 2 ^ n,
    evol n (measI b qs k) f i = acts (rots b qs) f i := by
  intro qs
  induction qs with
  | nil => intro k _ f i _; rfl
  | cons q qs ih =>
    intro k hqs f i hi
    rw [measI, evol_append, evol_m, evol_congr _ (evol_rotI (hqs q (by simp)) _ f) i hi,
      ih _ (fun q' h => hqs q' (by simp [h])) _ i hi, ← acts_append]
    rfl

theorem fin_append : ∀ (xs ys : List Inst) (val : Nat → Bool) (i : Nat), (∀ x ∈ xs, x.op ≠ .measure) → fin (xs ++ ys) val i = fin ys val i := by
  intro xs
  induction xs with
  | nil => intro ys val i _; rfl
  | cons x xs ih =>
    intro ys val i h
    rw [List.cons_append, fin]
    split
    · next hm => exact absurd hm (h x (by simp))
    · exact ih _ _ _ fun y hy => h y (by simp [hy])

theorem rotI_gate {b : Bool × Bool} {q : Nat} : ∀ x ∈ rotI b q, (x.op = .gate .H [] ∨ x.op = .gate .Sdg []) ∧ x.qargs = [q] ∧ x.cargs = [] ∧ x.cond = none := by
  intro x hx
  unfold rotI at hx
  split at hx
  · split at hx <;> simp at hx
    · rcases hx with rfl | rfl <;> simp
    · rw [hx]; simp
  · simp at hx

theorem rotI_nm {b : Bool × Bool} {q : Nat} : ∀ x ∈ rotI b q, x.op ≠ .measure := by
  intro x hx h
  rcases (rotI_gate x hx).1 with h' | h' <;> rw [h] at h' <;> cases h'

theorem fin_low (b : Pauli) (i : Nat) : ∀ (qs : List Nat) (k : Nat) (val : Nat → Bool) (c : Nat), c < k → fin (measI b qs k) val i c = val c := by
  intro qs
  induction qs with
  | nil => intro k val c _; rfl
  | cons q qs ih =>
    intro k val c hc
    rw [measI, fin_append _ _ _ _ rotI_nm]
    show fin (measI b qs (k + 1)) (upd val k (i.testBit q)) i c = _
    rw [ih _ _ _ (by omega), upd, if_neg (by omega)]

theorem fin_measI (b : Pauli) (i : Nat) : ∀ (qs : List Nat) (k : Nat) (val : Nat → Bool),
    (List.range' k qs.length).map (fin (measI b qs k) val i) = qs.map (i.testBit ·) := by
  intro qs
  induction qs with
  | nil => intro k val; rfl
  | cons q qs ih =>
    intro k val
    rw [measI, fin_append _ _ _ _ rotI_nm]
    show (List.range' k (qs.length + 1)).map (fin (measI b qs (k + 1)) (upd val k (i.testBit q)) i) = _
    rw [List.range'_succ, List.map_cons, List.map_cons, ih, fin_low _ _ _ _ _ _ (by omega), upd, if_pos rfl]

theorem deferrable_append : ∀ (xs ys : List Inst) (meas : List Nat), (∀ x ∈ xs, x.cond = none ∧ x.op ≠ .measure ∧ x.op ≠ .reset ∧ ∀ q ∈ x.qargs, q ∉ meas) →
    Deferrable meas ys → Deferrable meas (xs ++ ys) := by
  intro xs
  induction xs with
  | nil => intro ys meas _ h; exact h
  | cons x xs ih =>
    intro ys meas h hy
    obtain ⟨h1, h2, h3, h4⟩ := h x (by simp)
    refine ⟨h1, ?_⟩
    have := ih ys meas (fun x hx => h x (by simp [hx])) hy
    cases ho : x.op with
    | measure => exact absurd ho h2
    | reset => exact absurd ho h3
    | _ => exact ⟨h4, this⟩

theorem deferrable_measI (b : Pauli) : ∀ (qs : List Nat) (k : Nat) (meas : List Nat), qs.Nodup → (∀ q ∈ qs, q ∉ meas) → Deferrable meas (measI b qs k) := by
  intro qs
  induction qs with
  | nil => intro k meas _ _; exact trivial
  | cons q qs ih =>
    intro k meas hnd hm
    rw [List.nodup_cons] at hnd
    refine deferrable_append _ _ _ (fun x hx => ?_) ⟨rfl, ?_⟩
    · obtain ⟨h1, h2, h3, h4⟩ := rotI_gate x hx
      refine ⟨h4, rotI_nm x hx, ?_, ?_⟩
      · intro h; rcases h1 with h' | h' <;> rw [h] at h' <;> cases h'
      · rw [h2]; intro a ha; rw [List.mem_singleton.1 ha]; exact hm q (by simp)
    · refine ih _ _ hnd.2 fun a ha => ?_
      show a ∉ [q] ++ meas
      simp only [List.singleton_append, List.mem_cons, not_or]
      exact ⟨fun h => hnd.1 (h ▸ ha), hm a (by simp [ha])⟩

theorem measI_fine {n nc : Nat} {ms} (b : Pauli) : ∀ (qs : List Nat) (k : Nat), (∀ q ∈ qs, q < n) → k + qs.length ≤ nc →
    ∀ x ∈ measI b qs k, Fine n nc ms x := by
  intro qs
  induction qs with
  | nil => intro k _ _ x hx; cases hx
  | cons q qs ih =>
    intro k hq hk x hx
    rw [List.length_cons] at hk
    rcases List.mem_append.1 hx with hx | hx
    · have hql := hq q (by simp)
      obtain ⟨h1, h2, h3, h4⟩ := rotI_gate x hx
      have hg : ∀ (g : GName), g.mat1.isSome = true → x.op = .gate g [] → Fine n nc ms x := by
        intro g hg h
        refine ⟨⟨?_, ?_, ?_, ?_, ?_⟩, ?_, ?_⟩
        · rw [h2]; simp
        · rw [h2]; intro a ha; rw [List.mem_singleton.1 ha]; exact hql
        · rw [h3]; simp
        · rw [h, h2, h3]; exact ⟨rfl, by rw [if_pos hg]; rfl⟩
        · rw [h4]; intro c hc; cases hc
        · rw [h]; intro b hb; cases hb
        · rw [h4]; intro c hc; cases hc
      rcases h1 with h | h
      · exact hg .H rfl h
      · exact hg .Sdg rfl h
    · rcases List.mem_cons.1 hx with rfl | hx
      · exact mI_fine (hq q (by simp)) (by omega) (by intro c hc; cases hc)
      · exact ih _ (fun a ha => hq a (by simp [ha])) (by omega) x hx

theorem hits_map (p : Pauli) (i : Nat) : ∀ (qs : List Nat), hits p qs (qs.map (i.testBit ·)) = ones i (qs.filter p.acts) := by
  intro qs
  induction qs with
  | nil => rfl
  | cons q qs ih =>
    rw [List.map_cons, hits, List.tail_cons, ih, List.headD_cons, List.filter_cons]
    by_cases h : p.acts q = true
    · rw [if_pos h, h, Bool.true_and, ones, ones, List.countP_cons, Nat.add_comm]
    · rw [if_neg h]; simp [h]

theorem support_lt {b : Pauli} {n : Nat} (hl : b.length = n) : ∀ q ∈ b.support, q < n := by
  intro q hq
  have := (List.mem_filter.1 hq).1
  rw [List.mem_range, hl] at this
  exact this

theorem combine_fine {c : Circ} (hc : GateCirc c) (h0 : c.nc = 0) {b : Pauli} (hl : b.length = c.nq) {ms} :
    ∀ x ∈ (combine c b).data, Fine c.nq b.support.length ms x := by
  intro x hx
  rcases List.mem_append.1 hx with hx | hx
  · have hf := hc.fine x hx
    obtain ⟨h1, h2⟩ := hc.gates x hx
    refine ⟨⟨hf.distinct, hf.qubits, ?_, hf.arity, ?_⟩, ?_, hf.aligned⟩
    · intro a ha; exact absurd (hf.clbits a ha) (by omega)
    · rw [h1]; intro c hc; cases hc
    · rcases h2 with h | ⟨g, ctl, h⟩
      · rw [h]; exact trivial
      · have := hf.op; rw [h] at this ⊢; exact this
  · exact measI_fine b _ 0 (support_lt hl) (by omega) x hx

/-- What the measurement circuit computes, for any function of the outcome. -/
theorem expect_combine {c : Circ} (hc : GateCirc c) (h0 : c.nc = 0) {b : Pauli} (hl : b.length = c.nq) (ψ : List Bool → ℝ) :
    expect c.nq (fun val => ψ ((List.range b.support.length).map val).reverse) (combine c b).data zeroState (fun _ => false) =
      ∑ i ∈ range (2 ^ c.nq), (acts (rots b b.support) (evol c.nq c.data zeroState) i).mag2 *
        ψ (b.support.map (i.testBit ·)).reverse := by
  have hd : Deferrable [] (combine c b).data := by
    refine deferrable_append _ _ _ (fun x hx => ?_) (deferrable_measI b _ 0 [] (List.Nodup.filter _ List.nodup_range) (by simp))
    obtain ⟨h1, h2⟩ := hc.gates x hx
    refine ⟨h1, ?_, ?_, by simp⟩ <;> rintro h <;> rcases h2 with h' | ⟨g, ctl, h'⟩ <;> rw [h] at h' <;> cases h'
  rw [expect_deferred (ms := []) _ _ (combine_fine hc h0 hl) [] hd]
  refine Finset.sum_congr rfl fun i hi => ?_
  have hg : ∀ x ∈ c.data, x.op ≠ .measure := by
    intro x hx h
    rcases (hc.gates x hx).2 with h' | ⟨g, ctl, h'⟩ <;> rw [h] at h' <;> cases h'
  congr 2
  · show evol c.nq (c.data ++ measI b b.support 0) zeroState i = _
    rw [evol_append]
    exact evol_measI b _ 0 (support_lt hl) _ i (mem_range.1 hi)
  · congr 1
    show (List.range _).map (fin (c.data ++ measI b b.support 0) _ i) = _
    rw [fin_append _ _ _ _ hg, List.range_eq_range', fin_measI]

/-- All outcomes of `k` bits. -/
noncomputable def allKeys (k : Nat) : Finset (List Bool) := by
  classical exact (Finset.univ : Finset (Fin k → Bool)).image List.ofFn

theorem mem_allKeys {k : Nat} {l : List Bool} : l ∈ allKeys k ↔ l.length = k := by
  classical
  unfold allKeys
  simp only [Finset.mem_image, Finset.mem_univ, true_and]
  constructor
  · rintro ⟨a, rfl⟩; simp
  · rintro rfl; exact ⟨fun i => l[i], by simp⟩

/-- The mean of a function of the outcome. -/
theorem mean_combine {c : Circ} (hc : GateCirc c) (h0 : c.nc = 0) {b : Pauli} (hl : b.length = c.nq) (ψ : List Bool → ℝ) :
    ∑ k ∈ allKeys b.support.length, (combine c b).prob k * ψ k =
      ∑ i ∈ range (2 ^ c.nq), (acts (rots b b.support) (evol c.nq c.data zeroState) i).mag2 *
        ψ (b.support.map (i.testBit ·)).reverse := by
  classical
  have e : ∀ k, (combine c b).prob k = ∑ i ∈ range (2 ^ c.nq), (acts (rots b b.support) (evol c.nq c.data zeroState) i).mag2 *
        (if k = (b.support.map (i.testBit ·)).reverse then 1 else 0) := by
    intro k
    have := expect_combine hc h0 hl (fun k' => if k = k' then 1 else 0)
    rw [← this, Circ.prob]
    show expect c.nq _ _ _ _ = _
    congr
  simp only [e, Finset.sum_mul]
  rw [Finset.sum_comm]
  refine Finset.sum_congr rfl fun i _ => ?_
  rw [Finset.sum_eq_single ((b.support.map (i.testBit ·)).reverse)]
  · rw [if_pos rfl, mul_one]
  · intro k _ hk; rw [if_neg hk]; ring
  · intro h; exact absurd (mem_allKeys.2 (by simp)) h

/-- **The mean sign of the outcomes is the expectation value.** -/
theorem mean_sgn {c : Circ} (hc : GateCirc c) (h0 : c.nc = 0) {p b : Pauli} (hl : b.length = c.nq) (hp : p.length = c.nq)
    (hcomp : ∀ q, p.acts q = true → p.on q = b.on q) :
    ∑ k ∈ allKeys b.support.length, (combine c b).prob k * sgn p b k = expVal c.nq p (evol c.nq c.data zeroState) := by
  rw [mean_combine hc h0 hl, expVal_rots hl hp hcomp]
  refine Finset.sum_congr rfl fun i _ => ?_
  rw [sgn, List.reverse_reverse, hits_map]

/-- The probabilities of the outcomes sum to 1. -/
theorem sum_prob {c : Circ} (hc : GateCirc c) (h0 : c.nc = 0) {b : Pauli} (hl : b.length = c.nq) :
    ∑ k ∈ allKeys b.support.length, (combine c b).prob k = 1 := by
  have := mean_combine hc h0 hl fun _ => 1
  simp only [mul_one] at this
  rw [this]
  have hu : ∀ x ∈ rots b b.support, x.1 < c.nq ∧ Unit2 x.2 := by
    intro x hx
    obtain ⟨q, hq, hx⟩ := List.mem_flatMap.1 hx
    exact rotA_unit (support_lt hl q hq) x hx
  have key : ∀ f : Nat → CR, ∑ i ∈ range (2 ^ c.nq), (f i).mag2 = (∑ i ∈ range (2 ^ c.nq), conj (f i) * f i).r := by
    intro f
    rw [sum_r]
    refine Finset.sum_congr rfl fun i _ => ?_
    simp [conj, Cx.mag2]
  rw [key, acts_inner _ hu, evol_inner c.data (fun x hx A hA => ?_), ← key]
  · exact nrm_zeroState c.nq
  · rcases hc.oper hx with ⟨_, h⟩ | ⟨A', h, hI⟩
    · rw [h] at hA; cases hA
    · rw [h] at hA; cases hA; exact hI

end QDD.Py
