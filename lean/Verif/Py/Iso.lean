import Verif.Py.Gates
/-!
# The operators of a circuit preserve the norm
-/

set_option linter.unusedSectionVars false
set_option linter.unusedVariables false
set_option linter.unusedSimpArgs false

namespace QDD.Py
open Spec Api Gate Finset Props

/-- A two-qubit gate with orthonormal columns gives, for all targets and controls, a matrix with orthonormal columns. -/
theorem gate2_isometry {n t0 t1 : Nat} {g : Nat → Nat → CR} {cs : List Ctrl} (h0 : t0 < n) (h1 : t1 < n) (hne : t0 ≠ t1)
    (hcs : ∀ c ∈ cs, c.qubit ≠ t0 ∧ c.qubit ≠ t1)
    (hg : ∀ b b' c c' : Bool, ∑ x : Bool × Bool, conj (g (2 * bit x.1 + bit x.2) (2 * bit b + bit b')) *
      g (2 * bit x.1 + bit x.2) (2 * bit c + bit c') = if b = c ∧ b' = c' then 1 else 0) :
    Isometry n (Spec.gate2 n g t0 t1 cs) := by
  intro j hj k hk
  let s : Nat → Nat → Bool → Nat := fun t a b => if a.testBit t = b then a else a ^^^ 2 ^ t
  have sbit : ∀ t a b c, (s t a b).testBit c = if c = t then b else a.testBit c := by
    intro t a b c
    dsimp only [s]
    by_cases hb : a.testBit t = b
    · rw [if_pos hb]
      by_cases hc : c = t
      · rw [if_pos hc, hc, hb]
      · rw [if_neg hc]
    · rw [if_neg hb, Nat.testBit_xor, Nat.testBit_two_pow]
      by_cases hc : c = t
      · subst hc; simp; cases hjt : a.testBit c <;> cases b <;> simp_all
      · rw [if_neg hc]; simp [Ne.symm hc]
  have slt : ∀ t a b, t < n → a < 2 ^ n → s t a b < 2 ^ n := by
    intro t a b ht ha
    dsimp only [s]
    split
    · exact ha
    · exact Nat.xor_lt_two_pow ha (Nat.pow_lt_pow_right (by omega) ht)
  let r : Bool × Bool → Nat := fun x => s t1 (s t0 j x.1) x.2
  have rbit : ∀ x c, (r x).testBit c = if c = t1 then x.2 else if c = t0 then x.1 else j.testBit c := by
    intro x c
    dsimp only [r]
    rw [sbit, sbit]
  have rlt : ∀ x, r x < 2 ^ n := fun x => slt _ _ _ h1 (slt _ _ _ h0 hj)
  have r0 : ∀ x, (r x).testBit t0 = x.1 := fun x => by rw [rbit, if_neg hne, if_pos rfl]
  have r1 : ∀ x, (r x).testBit t1 = x.2 := fun x => by rw [rbit, if_pos rfl]
  have rinj : Function.Injective r := by
    intro x y hxy
    have e0 := congrArg (·.testBit t0) hxy
    have e1 := congrArg (·.testBit t1) hxy
    simp only [r0, r1] at e0 e1
    exact Prod.ext e0 e1
  have hi_bits : ∀ i < 2 ^ n, ∀ c, n ≤ c → i.testBit c = false := fun i hi c hc =>
    Nat.testBit_lt_two_pow (lt_of_lt_of_le hi (Nat.pow_le_pow_right (by omega) hc))
  have hrow : ∀ i < 2 ^ n, i ∉ Finset.univ.image r → Spec.gate2 n g t0 t1 cs i j = 0 := by
    intro i hi hni
    unfold Spec.gate2
    rw [if_neg]
    intro hall
    apply hni
    rw [Finset.mem_image]
    refine ⟨(i.testBit t0, i.testBit t1), Finset.mem_univ _, ?_⟩
    apply Nat.eq_of_testBit_eq
    intro c
    rw [rbit]
    by_cases hc1 : c = t1
    · rw [if_pos hc1, hc1]
    · rw [if_neg hc1]
      by_cases hc0 : c = t0
      · rw [if_pos hc0, hc0]
      · rw [if_neg hc0]
        rcases Nat.lt_or_ge c n with hcn | hcn
        · exact (hall c hcn hc0 hc1).symm
        · rw [hi_bits i hi c hcn, hi_bits j hj c hcn]
  have hsum : ∑ i ∈ range (2 ^ n), conj (Spec.gate2 n g t0 t1 cs i j) * Spec.gate2 n g t0 t1 cs i k =
      ∑ x : Bool × Bool, conj (Spec.gate2 n g t0 t1 cs (r x) j) * Spec.gate2 n g t0 t1 cs (r x) k := by
    rw [← Finset.sum_image (f := fun i => conj (Spec.gate2 n g t0 t1 cs i j) * Spec.gate2 n g t0 t1 cs i k)
      (s := Finset.univ) (g := r) (fun x _ y _ h => rinj h)]
    symm
    refine Finset.sum_subset (fun x hx => ?_) fun i hi hni => ?_
    · obtain ⟨y, _, rfl⟩ := Finset.mem_image.1 hx
      exact mem_range.2 (rlt y)
    · rw [hrow i (mem_range.1 hi) hni, show conj (0 : CR) = 0 by apply Cx.ext <;> simp [conj], zero_mul]
  rw [hsum]
  have hsat : ∀ x, sat cs n (r x) ↔ sat cs n j := by
    intro x
    unfold sat
    refine forall_congr' fun c => forall_congr' fun hc => forall_congr' fun _ => ?_
    rw [rbit, if_neg (hcs c hc).2, if_neg (hcs c hc).1]
  have hcol : ∀ x, Spec.gate2 n g t0 t1 cs (r x) j =
      if sat cs n j then g (2 * bit x.1 + bit x.2) (2 * bit (j.testBit t0) + bit (j.testBit t1))
      else if x.1 = j.testBit t0 ∧ x.2 = j.testBit t1 then 1 else 0 := by
    intro x
    unfold Spec.gate2
    rw [if_pos (fun c _ hc0 hc1 => by rw [rbit, if_neg hc1, if_neg hc0])]
    simp only [hsat, r0, r1]
  by_cases hjk : ∀ c < n, c ≠ t0 → c ≠ t1 → j.testBit c = k.testBit c
  · have hcolk : ∀ x, Spec.gate2 n g t0 t1 cs (r x) k =
        if sat cs n j then g (2 * bit x.1 + bit x.2) (2 * bit (k.testBit t0) + bit (k.testBit t1))
        else if x.1 = k.testBit t0 ∧ x.2 = k.testBit t1 then 1 else 0 := by
      intro x
      unfold Spec.gate2
      rw [if_pos (fun c hcn hc0 hc1 => by rw [rbit, if_neg hc1, if_neg hc0]; exact hjk c hcn hc0 hc1)]
      simp only [hsat, r0, r1]
    have hjk' : j = k ↔ j.testBit t0 = k.testBit t0 ∧ j.testBit t1 = k.testBit t1 := by
      constructor
      · rintro rfl; exact ⟨rfl, rfl⟩
      · rintro ⟨e0, e1⟩
        apply Nat.eq_of_testBit_eq
        intro c
        rcases Nat.lt_or_ge c n with hcn | hcn
        · by_cases hc0 : c = t0
          · rw [hc0]; exact e0
          · by_cases hc1 : c = t1
            · rw [hc1]; exact e1
            · exact hjk c hcn hc0 hc1
        · rw [hi_bits k hk c hcn, hi_bits j hj c hcn]
    rw [Finset.sum_congr rfl fun x _ => by rw [hcol x, hcolk x]]
    simp only [hjk']
    by_cases hs : sat cs n j
    · simp only [hs, if_true]
      exact hg _ _ _ _
    · simp only [hs, if_false]
      have c0 : conj (0 : CR) = 0 := by apply Cx.ext <;> simp [conj]
      have c1 : conj (1 : CR) = 1 := by apply Cx.ext <;> simp [conj]
      cases j.testBit t0 <;> cases k.testBit t0 <;> cases j.testBit t1 <;> cases k.testBit t1 <;>
        simp [c0, c1, Fintype.sum_prod_type]
  · have hcolk : ∀ x, Spec.gate2 n g t0 t1 cs (r x) k = 0 := by
      intro x
      unfold Spec.gate2
      rw [if_neg]
      intro hh
      exact hjk fun c hcn hc0 hc1 => by have := hh c hcn hc0 hc1; rwa [rbit, if_neg hc1, if_neg hc0] at this
    rw [Finset.sum_congr rfl fun x _ => by rw [hcolk x, mul_zero],
      if_neg (fun hh => hjk (by rw [hh]; exact fun _ _ _ _ => rfl))]
    simp

theorem applies4 {g : Nat → Nat → CR} (hg : M4 g ∈ U4) (b b' c c' : Bool) :
    ∑ x : Bool × Bool, conj (g (2 * bit x.1 + bit x.2) (2 * bit b + bit b')) *
      g (2 * bit x.1 + bit x.2) (2 * bit c + bit c') = if b = c ∧ b' = c' then (1 : CR) else 0 := by
  have h1 := Matrix.UnitaryGroup.star_mul_self (⟨M4 g, hg⟩ : Matrix.unitaryGroup (Fin 2 × Fin 2) ℂ)
  have hc : ∀ x : CR, toC (conj x) = star (toC x) := fun x => by apply Complex.ext <;> simp [toC, conj]
  have inj : ∀ x y : CR, toC x = toC y → x = y := fun x y hh => by
    apply Cx.ext
    · exact congrArg Complex.re hh
    · exact congrArg Complex.im hh
  have key : ∀ i j : Fin 2 × Fin 2, (∑ x : Fin 2 × Fin 2, star (M4 g x i) * M4 g x j) = if i = j then 1 else 0 := by
    intro i j
    have := congrFun (congrFun h1 i) j
    rw [Matrix.mul_apply, Matrix.one_apply] at this
    rw [← this]
    rfl
  apply inj
  have hb := key (fin2 (bit b), fin2 (bit b')) (fin2 (bit c), fin2 (bit c'))
  rw [Fintype.sum_prod_type, Fin.sum_univ_two, Fin.sum_univ_two, Fin.sum_univ_two] at hb
  simp only [Fintype.sum_prod_type, Fintype.sum_bool, toC_add, toC_mul, hc]
  have hif : toC (if b = c ∧ b' = c' then (1 : CR) else 0) =
      if ((fin2 (bit b), fin2 (bit b')) : Fin 2 × Fin 2) = (fin2 (bit c), fin2 (bit c')) then 1 else 0 := by
    cases b <;> cases b' <;> cases c <;> cases c' <;> simp [fin2, bit, toC] <;> rfl
  rw [hif, ← hb]
  have e : ∀ (x y u v : Bool), M4 g (fin2 (bit x), fin2 (bit y)) (fin2 (bit u), fin2 (bit v)) =
      toC (g (2 * bit x + bit y) (2 * bit u + bit v)) := by
    intro x y u v
    cases x <;> cases y <;> cases u <;> cases v <;> rfl
  have e00 := fun u v => e false false u v
  have e01 := fun u v => e false true u v
  have e10 := fun u v => e true false u v
  have e11 := fun u v => e true true u v
  simp only [show fin2 (bit false) = 0 from rfl, show fin2 (bit true) = 1 from rfl] at e00 e01 e10 e11
  rw [e00, e01, e10, e11, e00, e01, e10, e11]
  ring

theorem subIndex_range (k i : Nat) : subIndex (List.range k) i = i % 2 ^ k := by
  unfold subIndex
  rw [List.length_range]
  have : ∀ m ≤ k, (∑ x ∈ range m, if i.testBit ((List.range k).getD x 0) then 2 ^ x else 0) = i % 2 ^ m := by
    intro m
    induction m with
    | zero => intro _; simp [Nat.mod_one]
    | succ m ih =>
      intro hm
      rw [Finset.sum_range_succ, ih (by omega), Nat.mod_pow_succ]
      have : (List.range k).getD m 0 = m := by
        rw [List.getD_eq_getElem?_getD, List.getElem?_range (by omega)]; rfl
      rw [this, Nat.testBit_eq_decide_div_mod_eq]
      rcases Nat.mod_two_eq_zero_or_one (i / 2 ^ m) with h | h <;> simp [h]
  exact this k le_rfl

theorem high_eq {k n i j : Nat} (hi : i < 2 ^ n) (hj : j < 2 ^ n) :
    (∀ b < n, b ∉ List.range k → i.testBit b = j.testBit b) ↔ i / 2 ^ k = j / 2 ^ k := by
  constructor
  · intro h
    apply Nat.eq_of_testBit_eq
    intro c
    rw [Nat.testBit_div_two_pow, Nat.testBit_div_two_pow]
    rcases Nat.lt_or_ge (c + k) n with hc | hc
    · exact h _ hc (by simp)
    · rw [Nat.testBit_lt_two_pow (lt_of_lt_of_le hi (Nat.pow_le_pow_right (by omega) hc)),
        Nat.testBit_lt_two_pow (lt_of_lt_of_le hj (Nat.pow_le_pow_right (by omega) hc))]
  · intro h b hb hbk
    have hbk : k ≤ b := by simpa using hbk
    have := congrArg (·.testBit (b - k)) h
    simp only [Nat.testBit_div_two_pow] at this
    rwa [Nat.sub_add_cancel hbk] at this

theorem onQubits_range {n k : Nat} (M : Nat → Nat → CR) {i j : Nat} (hi : i < 2 ^ n) (hj : j < 2 ^ n) :
    onQubits n M (List.range k) i j = (⟨k, M⟩ : Mat ℝ).at n i j := by
  unfold onQubits Mat.at
  rw [subIndex_range, subIndex_range]
  by_cases h : i / 2 ^ k = j / 2 ^ k
  · rw [if_pos ((high_eq hi hj).2 h), if_pos h]
  · rw [if_neg (fun hh => h ((high_eq hi hj).1 hh)), if_neg h]

theorem sum_blocks {β : Type} [AddCommMonoid β] {n k : Nat} (hk : k ≤ n) (F : Nat → β) :
    ∑ i ∈ range (2 ^ n), F i = ∑ a ∈ range (2 ^ (n - k)), ∑ b ∈ range (2 ^ k), F (a * 2 ^ k + b) := by
  have e : 2 ^ n = 2 ^ (n - k) * 2 ^ k := by rw [← Nat.pow_add, Nat.sub_add_cancel hk]
  rw [e]
  generalize 2 ^ (n - k) = A
  generalize 2 ^ k = B
  induction A with
  | zero => simp
  | succ A ih => rw [Nat.succ_mul, Finset.sum_range_add, ih, Finset.sum_range_succ]

theorem onQubits_isometry {n k : Nat} (hk : k ≤ n) {M : Nat → Nat → CR} (hM : Isometry k M) :
    Isometry n (onQubits n M (List.range k)) := by
  intro j hj l hl
  have hp : 0 < 2 ^ k := Nat.two_pow_pos k
  rw [Finset.sum_congr rfl fun i hi => by
    rw [onQubits_range M (mem_range.1 hi) hj, onQubits_range M (mem_range.1 hi) hl], sum_blocks hk]
  have c0 : conj (0 : CR) = 0 := by apply Cx.ext <;> simp [conj]
  have hdiv : ∀ a b, b < 2 ^ k → (a * 2 ^ k + b) / 2 ^ k = a ∧ (a * 2 ^ k + b) % 2 ^ k = b := by
    intro a b hb
    constructor
    · rw [Nat.add_comm, Nat.add_mul_div_right _ _ hp, Nat.div_eq_of_lt hb, Nat.zero_add]
    · rw [Nat.add_comm, Nat.add_mul_mod_self_right, Nat.mod_eq_of_lt hb]
  have inner : ∀ a, ∑ b ∈ range (2 ^ k), conj ((⟨k, M⟩ : Mat ℝ).at n (a * 2 ^ k + b) j) *
      (⟨k, M⟩ : Mat ℝ).at n (a * 2 ^ k + b) l = if a = j / 2 ^ k ∧ a = l / 2 ^ k then
        (if j % 2 ^ k = l % 2 ^ k then 1 else 0) else 0 := by
    intro a
    have : ∀ b ∈ range (2 ^ k), conj ((⟨k, M⟩ : Mat ℝ).at n (a * 2 ^ k + b) j) *
      (⟨k, M⟩ : Mat ℝ).at n (a * 2 ^ k + b) l = if a = j / 2 ^ k ∧ a = l / 2 ^ k then
        conj (M b (j % 2 ^ k)) * M b (l % 2 ^ k) else 0 := by
      intro b hb
      have hd := hdiv a b (mem_range.1 hb)
      unfold Mat.at
      dsimp only
      rw [hd.1, hd.2]
      by_cases h1 : a = j / 2 ^ k
      · by_cases h2 : a = l / 2 ^ k
        · rw [if_pos h1, if_pos h2, if_pos ⟨h1, h2⟩]
        · rw [if_neg h2, mul_zero, if_neg (fun h => h2 h.2)]
      · rw [if_neg h1, c0, zero_mul, if_neg (fun h => h1 h.1)]
    rw [Finset.sum_congr rfl this]
    by_cases h : a = j / 2 ^ k ∧ a = l / 2 ^ k
    · simp only [if_pos h]
      exact hM _ (Nat.mod_lt _ hp) _ (Nat.mod_lt _ hp)
    · simp only [if_neg h, Finset.sum_const_zero]
  rw [Finset.sum_congr rfl fun a _ => inner a]
  have hjk : j / 2 ^ k < 2 ^ (n - k) := by
    rw [Nat.div_lt_iff_lt_mul hp, ← Nat.pow_add, Nat.sub_add_cancel hk]; exact hj
  by_cases hjl : j / 2 ^ k = l / 2 ^ k
  · rw [Finset.sum_eq_single (j / 2 ^ k)]
    · rw [if_pos ⟨rfl, hjl⟩]
      have : j = l ↔ j % 2 ^ k = l % 2 ^ k := by
        constructor
        · rintro rfl; rfl
        · intro h
          rw [← Nat.div_add_mod j (2 ^ k), ← Nat.div_add_mod l (2 ^ k), hjl, h]
      simp only [this]
    · intro a _ ha; rw [if_neg (fun h => ha h.1)]
    · intro h; exact absurd (mem_range.2 hjk) h
  · rw [Finset.sum_eq_zero (fun a _ => if_neg (fun h => hjl (h.1.symm.trans h.2))),
      if_neg (fun h => hjl (by rw [h]))]

end QDD.Py
