import Verif.Api.Main
/-!
# C01-C06, C08, C10, C27: the arithmetic of the API, as seen through `getVector` and `getMatrix`

All statements are about machine states reached by arbitrary histories of API calls (`Hist`), in the serial or
multi-threaded build, for every hash function, cache content, gc threshold and schedule.  `h.vs[v]? = some V` says that
`v` is a live handle; only its qubit count `V.k` and whether it is nonzero are used, the entries are those that
`getVector` returns.
-/

set_option linter.unusedSectionVars false
set_option linter.unusedVariables false
set_option linter.unusedSimpArgs false

namespace QDD.Props
open Spec Api Finset

variable {K : Type} [Field K] [LinearOrder K] [IsStrictOrderedRing K]
variable {cfg : Cfg K} {thr thrM : Nat} {cs : List (Cmd K)} {h : Heap K} {σ : Sys K} {os : List (Obs K)}

theorem addV_new (h : Heap K) (V : Vec K) : (h.addV V).vs[h.vs.length]? = some V := by
  unfold Heap.addV; simp

theorem addV_old {h : Heap K} {v : Nat} {V W : Vec K} (hv : h.vs[v]? = some V) : (h.addV W).vs[v]? = some V := by
  unfold Heap.addV
  obtain ⟨hl, _⟩ := List.getElem?_eq_some_iff.1 hv
  rw [List.getElem?_append_left hl]; exact hv

theorem addM_new (h : Heap K) (M : Mat K) : (h.addM M).ms[h.ms.length]? = some M := by
  unfold Heap.addM; simp

theorem addM_old {h : Heap K} {v : Nat} {V W : Mat K} (hv : h.ms[v]? = some V) : (h.addM W).ms[v]? = some V := by
  unfold Heap.addM
  obtain ⟨hl, _⟩ := List.getElem?_eq_some_iff.1 hv
  rw [List.getElem?_append_left hl]; exact hv

/-! ## Facts about `1 ⊗ F` -/

theorem at_self (M : Mat K) {i j : Nat} (hi : i < 2 ^ M.k) (hj : j < 2 ^ M.k) : M.at M.k i j = M.F i j := by
  unfold Mat.at
  rw [Nat.div_eq_of_lt hi, Nat.div_eq_of_lt hj, if_pos rfl, Nat.mod_eq_of_lt hi, Nat.mod_eq_of_lt hj]

theorem at_at (M : Mat K) {k : Nat} (hk : M.k ≤ k) (n i j : Nat) :
    (⟨k, M.at k⟩ : Mat K).at n i j = M.at n i j := by
  unfold Mat.at
  dsimp only
  obtain ⟨d, rfl⟩ := Nat.exists_eq_add_of_le hk
  have hmod : ∀ x, x % 2 ^ (M.k + d) % 2 ^ M.k = x % 2 ^ M.k := fun x =>
    Nat.mod_mod_of_dvd _ (pow_dvd_pow 2 (Nat.le_add_right _ _))
  have hdm : ∀ x, x / 2 ^ (M.k + d) = x / 2 ^ M.k / 2 ^ d := fun x => by rw [Nat.div_div_eq_div_mul, pow_add]
  have hmm : ∀ x, x % 2 ^ (M.k + d) / 2 ^ M.k = x / 2 ^ M.k % 2 ^ d := fun x => by
    rw [pow_add, Nat.mod_mul_right_div_self]
  simp only [hmod, hdm, hmm]
  by_cases h1 : i / 2 ^ M.k = j / 2 ^ M.k
  · simp [h1]
  · rw [if_neg h1]
    by_cases h2 : i / 2 ^ M.k / 2 ^ d = j / 2 ^ M.k / 2 ^ d
    · rw [if_pos h2, if_neg]
      intro h3
      apply h1
      rw [← Nat.div_add_mod (i / 2 ^ M.k) (2 ^ d), ← Nat.div_add_mod (j / 2 ^ M.k) (2 ^ d), h2, h3]
    · rw [if_neg h2]

/-- A sum over the indices with given high part. -/
theorem sum_block {k n : Nat} (hk : k ≤ n) {i : Nat} (hi : i < 2 ^ n) {g : Nat → C K}
    (hg : ∀ x < 2 ^ n, x / 2 ^ k ≠ i / 2 ^ k → g x = 0) :
    ∑ x ∈ range (2 ^ n), g x = ∑ r ∈ range (2 ^ k), g (i / 2 ^ k * 2 ^ k + r) := by
  symm
  have hp := Nat.two_pow_pos k
  refine Finset.sum_of_injOn (fun r => i / 2 ^ k * 2 ^ k + r) ?_ ?_ ?_ ?_
  · intro a _ b _ hab; dsimp only at hab; omega
  · intro r hr
    simp only [coe_range, Set.mem_Iio] at hr ⊢
    obtain ⟨d, rfl⟩ := Nat.exists_eq_add_of_le hk
    have h1 : i / 2 ^ k < 2 ^ d := by rw [Nat.div_lt_iff_lt_mul hp, ← pow_add, Nat.add_comm]; exact hi
    calc i / 2 ^ k * 2 ^ k + r < i / 2 ^ k * 2 ^ k + 2 ^ k := by omega
      _ = (i / 2 ^ k + 1) * 2 ^ k := by ring
      _ ≤ 2 ^ d * 2 ^ k := Nat.mul_le_mul_right _ h1
      _ = 2 ^ (k + d) := by rw [← pow_add, Nat.add_comm]
  · intro x hx hni
    apply hg x (mem_range.1 hx)
    intro he
    apply hni
    refine ⟨x % 2 ^ k, by simp [Nat.mod_lt _ hp], ?_⟩
    dsimp only
    rw [← he, Nat.mul_comm, Nat.div_add_mod]
  · intro r _; rfl

/-- `1 ⊗ (F G) = (1 ⊗ F)(1 ⊗ G)`. -/
theorem at_mul (a b : Mat K) {n : Nat} (ha : a.k ≤ n) (hb : b.k ≤ n) {i j : Nat} (hi : i < 2 ^ n) (hj : j < 2 ^ n) :
    (a.mul b).at n i j = ∑ x ∈ range (2 ^ n), a.at n i x * b.at n x j := by
  set k := max a.k b.k with hk
  have hkn : k ≤ n := by omega
  have hp := Nat.two_pow_pos k
  have ea : ∀ x y, a.at n x y = (⟨k, a.at k⟩ : Mat K).at n x y := fun x y => (at_at a (le_max_left _ _) n x y).symm
  have eb : ∀ x y, b.at n x y = (⟨k, b.at k⟩ : Mat K).at n x y := fun x y => (at_at b (le_max_right _ _) n x y).symm
  simp only [ea, eb]
  rw [sum_block hkn hi (fun x _ hx => by
    have : (⟨k, a.at k⟩ : Mat K).at n i x = 0 := by unfold Mat.at; rw [if_neg (Ne.symm hx)]
    rw [this, zero_mul])]
  unfold Mat.mul
  simp only [← hk]
  have hd : ∀ r < 2 ^ k, (i / 2 ^ k * 2 ^ k + r) / 2 ^ k = i / 2 ^ k := fun r hr => by
    rw [Nat.mul_comm, Nat.mul_add_div hp, Nat.div_eq_of_lt hr, Nat.add_zero]
  have hm : ∀ r < 2 ^ k, (i / 2 ^ k * 2 ^ k + r) % 2 ^ k = r := fun r hr => by
    rw [Nat.mul_comm, Nat.mul_add_mod, Nat.mod_eq_of_lt hr]
  by_cases hij : i / 2 ^ k = j / 2 ^ k
  · conv_lhs => unfold Mat.at
    dsimp only
    rw [if_pos hij]
    refine Finset.sum_congr rfl fun r hr => ?_
    have hr := mem_range.1 hr
    conv_rhs => unfold Mat.at
    dsimp only
    rw [hd r hr, hm r hr, if_pos rfl, if_pos hij]
  · conv_lhs => unfold Mat.at
    dsimp only
    rw [if_neg hij]
    symm
    refine Finset.sum_eq_zero fun r hr => ?_
    have hr := mem_range.1 hr
    have : (⟨k, b.at k⟩ : Mat K).at n (i / 2 ^ k * 2 ^ k + r) j = 0 := by
      unfold Mat.at; dsimp only; rw [hd r hr, if_neg hij]
    rw [this, mul_zero]

theorem at_add (a b : Mat K) {n : Nat} (i j : Nat) : (a.add b).at n i j = a.at n i j + b.at n i j := by
  rw [← at_at a (le_max_left a.k b.k) n i j, ← at_at b (le_max_right a.k b.k) n i j]
  unfold Mat.add
  simp only [Mat.at]
  split
  · rfl
  · simp

/-! ## C01 -/

/-- **C01.** `mv_multiply(m, v)` on `n` qubits: the call succeeds under every schedule; afterwards `getVector` of the
result gives `∑ j, m[i][j] * v[j]` in terms of what `getMatrix`/`getVector` gave for the operands, and the operands
still read out the same. -/
theorem C01_mv_multiply (hR : Hist cfg thr thrM cs h σ os) {m v n : Nat} {M : Mat K} {V : Vec K}
    (hm : h.ms[m]? = some M) (hv : h.vs[v]? = some V) (hM : M.k ≤ n) (hV : V.k = n) (hn : n ≤ 30)
    (hV0 : V.Nonzero) {A : Nat → Nat → C K} {f : Nat → C K} (hA : ReadsM cfg σ m n A) (hf : ReadsV cfg σ v n f)
    (h0 : ∃ i < 2 ^ n, ∑ j ∈ range (2 ^ n), A i j * f j ≠ 0) :
    Returns cfg σ (.mv m v) .unit ∧ ∀ o σ', Exec cfg σ (.mv m v) o σ' →
      ReadsV cfg σ' h.vs.length n (fun i => ∑ j ∈ range (2 ^ n), A i j * f j) ∧
      ReadsM cfg σ' m n A ∧ ReadsV cfg σ' v n f := by
  subst hV
  have hp : pre NQUBITS h (.mv m v) := ⟨M, V, hm, hv, hM⟩
  have hs : Spec.step cfg.sqrt h (.mv m v) = some (h.addV (M.apply V), .unit) := by
    simp only [Spec.step, hm, hv, Option.bind_eq_bind, Option.bind_some]
  refine ⟨hR.returns hp hs, fun o σ' he => ?_⟩
  have hR' := hR.after hp hs he
  have eA := hA.unique (hR.readsM hm hM hn)
  have ef := hf.unique (hR.readsV hv hV0 hn)
  have hprod : ∀ i < 2 ^ V.k, (M.apply V).f i = ∑ j ∈ range (2 ^ V.k), A i j * f j := fun i hi => by
    show ∑ j ∈ range (2 ^ V.k), M.at V.k i j * V.f j = _
    exact Finset.sum_congr rfl fun j hj => by rw [eA i hi j (mem_range.1 hj), ef j (mem_range.1 hj)]
  refine ⟨?_, ?_, ?_⟩
  · refine ReadsV.congr (hR'.readsV (V := M.apply V) (addV_new _ _) ?_ hn) hprod
    obtain ⟨i, hi, hne⟩ := h0
    exact ⟨i, hi, by rw [hprod i hi]; exact hne⟩
  · exact ReadsM.congr (hR'.readsM hm hM hn) fun i hi j hj => (eA i hi j hj).symm
  · exact ReadsV.congr (hR'.readsV (addV_old hv) hV0 hn) fun i hi => (ef i hi).symm

/-! ## C02 -/

/-- **C02.** `mm_multiply(a, b)`, read out at any qubit count covering both operands. -/
theorem C02_mm_multiply (hR : Hist cfg thr thrM cs h σ os) {a b n : Nat} {A B : Mat K}
    (ha : h.ms[a]? = some A) (hb : h.ms[b]? = some B) (hA : A.k ≤ n) (hB : B.k ≤ n) (hn : n ≤ 30)
    {F G : Nat → Nat → C K} (hF : ReadsM cfg σ a n F) (hG : ReadsM cfg σ b n G) :
    Returns cfg σ (.mmul a b) .unit ∧ ∀ o σ', Exec cfg σ (.mmul a b) o σ' →
      ReadsM cfg σ' h.ms.length n (fun i j => ∑ x ∈ range (2 ^ n), F i x * G x j) ∧
      ReadsM cfg σ' a n F ∧ ReadsM cfg σ' b n G := by
  have hp : pre NQUBITS h (.mmul a b) := ⟨A, B, ha, hb⟩
  have hs : Spec.step cfg.sqrt h (.mmul a b) = some (h.addM (A.mul B), .unit) := by
    simp only [Spec.step, ha, hb, Option.bind_eq_bind, Option.bind_some]
  refine ⟨hR.returns hp hs, fun o σ' he => ?_⟩
  have hR' := hR.after hp hs he
  have eA := hF.unique (hR.readsM ha hA hn)
  have eB := hG.unique (hR.readsM hb hB hn)
  refine ⟨?_, ?_, ?_⟩
  · refine ReadsM.congr (hR'.readsM (addM_new _ _) (max_le hA hB) hn) fun i hi j hj => ?_
    rw [at_mul A B hA hB hi hj]
    exact Finset.sum_congr rfl fun x hx => by
      have hx := mem_range.1 hx
      rw [eA i hi x hx, eB x hx j hj]
  · exact ReadsM.congr (hR'.readsM (addM_old ha) hA hn) fun i hi j hj => (eA i hi j hj).symm
  · exact ReadsM.congr (hR'.readsM (addM_old hb) hB hn) fun i hi j hj => (eB i hi j hj).symm

/-! ## C03 -/

/-- **C03 (vectors).** `vv_add(a, b)` is the entrywise sum. -/
theorem C03_vv_add (hR : Hist cfg thr thrM cs h σ os) {a b n : Nat} {A B : Vec K}
    (ha : h.vs[a]? = some A) (hb : h.vs[b]? = some B) (hA : A.k = n) (hB : B.k = n) (hn : n ≤ 30)
    (hA0 : A.Nonzero) (hB0 : B.Nonzero) {f g : Nat → C K} (hf : ReadsV cfg σ a n f) (hg : ReadsV cfg σ b n g)
    (h0 : ∃ i < 2 ^ n, f i + g i ≠ 0) :
    Returns cfg σ (.vadd a b) .unit ∧ ∀ o σ', Exec cfg σ (.vadd a b) o σ' →
      ReadsV cfg σ' h.vs.length n (fun i => f i + g i) ∧ ReadsV cfg σ' a n f ∧ ReadsV cfg σ' b n g := by
  subst hA
  have hp : pre NQUBITS h (.vadd a b) := ⟨A, B, ha, hb, hB.symm⟩
  have hs : Spec.step cfg.sqrt h (.vadd a b) = some (h.addV (A.add B), .unit) := by
    simp only [Spec.step, ha, hb, Option.bind_eq_bind, Option.bind_some]
  refine ⟨hR.returns hp hs, fun o σ' he => ?_⟩
  have hR' := hR.after hp hs he
  have hgB := hR.readsV hb hB0 (by omega)
  rw [hB] at hgB
  have ef := hf.unique (hR.readsV ha hA0 hn)
  have eg := hg.unique hgB
  have hsum : ∀ i < 2 ^ A.k, (A.add B).f i = f i + g i := fun i hi => by
    rw [ef i hi, eg i hi]; rfl
  refine ⟨?_, ?_, ?_⟩
  · refine ReadsV.congr (hR'.readsV (V := A.add B) (addV_new _ _) ?_ hn) hsum
    obtain ⟨i, hi, hne⟩ := h0
    exact ⟨i, hi, by rw [hsum i hi]; exact hne⟩
  · exact ReadsV.congr (hR'.readsV (addV_old ha) hA0 hn) fun i hi => (ef i hi).symm
  · have := hR'.readsV (addV_old hb) hB0 (by omega)
    rw [hB] at this
    exact ReadsV.congr this fun i hi => (eg i hi).symm

/-- **C03 (matrices).** `mm_add(a, b)` is the entrywise sum at any qubit count covering both. -/
theorem C03_mm_add (hR : Hist cfg thr thrM cs h σ os) {a b n : Nat} {A B : Mat K}
    (ha : h.ms[a]? = some A) (hb : h.ms[b]? = some B) (hA : A.k ≤ n) (hB : B.k ≤ n) (hn : n ≤ 30)
    {F G : Nat → Nat → C K} (hF : ReadsM cfg σ a n F) (hG : ReadsM cfg σ b n G) :
    Returns cfg σ (.madd a b) .unit ∧ ∀ o σ', Exec cfg σ (.madd a b) o σ' →
      ReadsM cfg σ' h.ms.length n (fun i j => F i j + G i j) ∧ ReadsM cfg σ' a n F ∧ ReadsM cfg σ' b n G := by
  have hp : pre NQUBITS h (.madd a b) := ⟨A, B, ha, hb⟩
  have hs : Spec.step cfg.sqrt h (.madd a b) = some (h.addM (A.add B), .unit) := by
    simp only [Spec.step, ha, hb, Option.bind_eq_bind, Option.bind_some]
  refine ⟨hR.returns hp hs, fun o σ' he => ?_⟩
  have hR' := hR.after hp hs he
  have eA := hF.unique (hR.readsM ha hA hn)
  have eB := hG.unique (hR.readsM hb hB hn)
  refine ⟨?_, ?_, ?_⟩
  · refine ReadsM.congr (hR'.readsM (addM_new _ _) (max_le hA hB) hn) fun i hi j hj => ?_
    rw [at_add A B, eA i hi j hj, eB i hi j hj]
  · exact ReadsM.congr (hR'.readsM (addM_old ha) hA hn) fun i hi j hj => (eA i hi j hj).symm
  · exact ReadsM.congr (hR'.readsM (addM_old hb) hB hn) fun i hi j hj => (eB i hi j hj).symm

/-! ## C04 -/

/-- **C04 (vectors).** `vv_kronecker(a, b)` is `a ⊗ b`, `a` on the high qubits. -/
theorem C04_vv_kronecker (hR : Hist cfg thr thrM cs h σ os) {a b p q : Nat} {A B : Vec K}
    (ha : h.vs[a]? = some A) (hb : h.vs[b]? = some B) (hA : A.k = p) (hB : B.k = q) (hn : p + q ≤ 30)
    (hA0 : A.Nonzero) (hB0 : B.Nonzero) {f g : Nat → C K} (hf : ReadsV cfg σ a p f) (hg : ReadsV cfg σ b q g) :
    Returns cfg σ (.vkron a b) .unit ∧ ∀ o σ', Exec cfg σ (.vkron a b) o σ' →
      ReadsV cfg σ' h.vs.length (p + q) (fun i => f (i / 2 ^ q) * g (i % 2 ^ q)) := by
  subst hA hB
  have hp : pre NQUBITS h (.vkron a b) := ⟨A, B, ha, hb, hA0, hB0, by unfold NQUBITS; omega⟩
  have hs : Spec.step cfg.sqrt h (.vkron a b) = some (h.addV (A.kron B), .unit) := by
    simp only [Spec.step, ha, hb, Option.bind_eq_bind, Option.bind_some]
  refine ⟨hR.returns hp hs, fun o σ' he => ?_⟩
  have hR' := hR.after hp hs he
  have ef := hf.unique (hR.readsV ha hA0 (by omega))
  have eg := hg.unique (hR.readsV hb hB0 (by omega))
  have hdiv : ∀ i < 2 ^ (A.k + B.k), i / 2 ^ B.k < 2 ^ A.k := fun i hi => by
    rw [Nat.div_lt_iff_lt_mul (Nat.two_pow_pos _), ← pow_add]; exact hi
  refine ReadsV.congr (hR'.readsV (addV_new _ _) ?_ hn) fun i hi => ?_
  · obtain ⟨i, hi, hi0⟩ := hA0
    obtain ⟨j, hj, hj0⟩ := hB0
    refine ⟨i * 2 ^ B.k + j, ?_, ?_⟩
    · show _ < 2 ^ (A.k + B.k)
      rw [pow_add]
      calc i * 2 ^ B.k + j < i * 2 ^ B.k + 2 ^ B.k := by omega
        _ = (i + 1) * 2 ^ B.k := by ring
        _ ≤ _ := Nat.mul_le_mul_right _ hi
    · show A.f ((i * 2 ^ B.k + j) / 2 ^ B.k) * B.f ((i * 2 ^ B.k + j) % 2 ^ B.k) ≠ 0
      rw [Nat.mul_comm i, Nat.mul_add_div (Nat.two_pow_pos _), Nat.div_eq_of_lt hj, Nat.add_zero, Nat.mul_add_mod,
        Nat.mod_eq_of_lt hj]
      exact mul_ne_zero hi0 hj0
  · show A.f _ * B.f _ = _
    rw [ef _ (hdiv i hi), eg _ (Nat.mod_lt _ (Nat.two_pow_pos _))]

/-- **C04 (matrices), partial.** `mm_kronecker(a, b)` is `a ⊗ b` when `b` is not the identity on its top qubit.
Missing: for such a `b` (a stripped diagram) the result is wrong, see `C04_mm_kronecker_stripped_wrong`. -/
theorem C04_mm_kronecker_partial (hR : Hist cfg thr thrM cs h σ os) {a b p q : Nat} {A B : Mat K}
    (ha : h.ms[a]? = some A) (hb : h.ms[b]? = some B) (hA : A.k = p) (hB : B.k = q) (hn : p + q ≤ 30)
    (hfull : 0 < q → ¬ B.TopIdentity)
    {F G : Nat → Nat → C K} (hF : ReadsM cfg σ a p F) (hG : ReadsM cfg σ b q G) :
    Returns cfg σ (.mkron a b) .unit ∧ ∀ o σ', Exec cfg σ (.mkron a b) o σ' →
      ReadsM cfg σ' h.ms.length (p + q)
        (fun i j => F (i / 2 ^ q) (j / 2 ^ q) * G (i % 2 ^ q) (j % 2 ^ q)) := by
  subst hA hB
  have hp : pre NQUBITS h (.mkron a b) := ⟨A, B, ha, hb, by unfold NQUBITS; omega, hfull⟩
  have hs : Spec.step cfg.sqrt h (.mkron a b) = some (h.addM (A.kron B), .unit) := by
    simp only [Spec.step, ha, hb, Option.bind_eq_bind, Option.bind_some]
  refine ⟨hR.returns hp hs, fun o σ' he => ?_⟩
  have hR' := hR.after hp hs he
  have eF := hF.unique (hR.readsM ha le_rfl (by omega))
  have eG := hG.unique (hR.readsM hb le_rfl (by omega))
  have hdiv : ∀ i < 2 ^ (A.k + B.k), i / 2 ^ B.k < 2 ^ A.k := fun i hi => by
    rw [Nat.div_lt_iff_lt_mul (Nat.two_pow_pos _), ← pow_add]; exact hi
  have hmod : ∀ i, i % 2 ^ B.k < 2 ^ B.k := fun i => Nat.mod_lt _ (Nat.two_pow_pos _)
  refine ReadsM.congr (hR'.readsM (addM_new _ _) le_rfl hn) fun i hi j hj => ?_
  refine (at_self (A.kron B) hi hj).trans ?_
  rw [eF _ (hdiv i hi) _ (hdiv j hj), eG _ (hmod i) _ (hmod j),
    at_self A (hdiv i hi) (hdiv j hj), at_self B (hmod i) (hmod j)]
  rfl

/-! ## C05, C06, C08, C10 -/

/-- A call that creates a matrix handle of `n` qubits: reading it out. -/
theorem newM_reads (hR : Hist cfg thr thrM cs h σ os) {c : Cmd K} {M : Mat K} (hp : pre NQUBITS h c)
    (hs : Spec.step cfg.sqrt h c = some (h.addM M, .unit)) (hn : M.k ≤ 30) :
    Returns cfg σ c .unit ∧ ∀ o σ', Exec cfg σ c o σ' → ReadsM cfg σ' h.ms.length M.k M.F := by
  refine ⟨hR.returns hp hs, fun o σ' he => ?_⟩
  exact ReadsM.congr ((hR.after hp hs he).readsM (addM_new _ _) le_rfl hn) fun i hi j hj => at_self M hi hj

/-- **C05.** `makeGate(n, g, t, controls)`: entry `(i, j)` is 0 if `i` and `j` differ in a bit other than `t`;
otherwise, if every control of `i` is satisfied it is the entry of `g`, else the entry of the identity.
(`Spec.gate1`, `Spec.sat`.) -/
theorem C05_makeGate (hR : Hist cfg thr thrM cs h σ os) {n t : Nat} {ctrls : List Ctrl} {g : Nat → Nat → C K}
    (ht : t < n) (hn : n ≤ 30) (hord : ctrls.Pairwise (fun a b => a.qubit < b.qubit))
    (hct : ∀ c ∈ ctrls, c.qubit ≠ t) :
    Returns cfg σ (.gate n g t ctrls) .unit ∧ ∀ o σ', Exec cfg σ (.gate n g t ctrls) o σ' →
      ReadsM cfg σ' h.ms.length n (fun i j =>
        if ∀ b < n, b ≠ t → i.testBit b = j.testBit b then
          if ∀ c ∈ ctrls, c.qubit < n → i.testBit c.qubit = !c.neg then
            g (bit (i.testBit t)) (bit (j.testBit t))
          else if i.testBit t = j.testBit t then 1 else 0
        else 0) :=
  newM_reads hR (M := ⟨n, Spec.gate1 n g t ctrls⟩) ⟨ht, by unfold NQUBITS; omega, hord, hct⟩ rfl hn

/-- **C06.** `makeTwoQubitGate(n, g, t0, t1, controls)`: as `makeGate`, with `t0` the high and `t1` the low bit of the
row and column index of `g`, whichever of `t0`, `t1` is larger. -/
theorem C06_makeTwoQubitGate (hR : Hist cfg thr thrM cs h σ os) {n t0 t1 : Nat} {ctrls : List Ctrl}
    {g : Nat → Nat → C K} (ht0 : t0 < n) (ht1 : t1 < n) (hne : t0 ≠ t1) (hn : n ≤ 30)
    (hord : ctrls.Pairwise (fun a b => a.qubit < b.qubit)) (hct : ∀ c ∈ ctrls, c.qubit ≠ t0 ∧ c.qubit ≠ t1) :
    Returns cfg σ (.gate2 n g t0 t1 ctrls) .unit ∧ ∀ o σ', Exec cfg σ (.gate2 n g t0 t1 ctrls) o σ' →
      ReadsM cfg σ' h.ms.length n (fun i j =>
        if ∀ b < n, b ≠ t0 → b ≠ t1 → i.testBit b = j.testBit b then
          if ∀ c ∈ ctrls, c.qubit < n → i.testBit c.qubit = !c.neg then
            g (2 * bit (i.testBit t0) + bit (i.testBit t1)) (2 * bit (j.testBit t0) + bit (j.testBit t1))
          else if i.testBit t0 = j.testBit t0 ∧ i.testBit t1 = j.testBit t1 then 1 else 0
        else 0) :=
  newM_reads hR (M := ⟨n, Spec.gate2 n g t0 t1 ctrls⟩)
    ⟨ht0, ht1, hne, by unfold NQUBITS; omega, hord, hct⟩ rfl hn

theorem testBit_flip' (i t b : Nat) : (i ^^^ 2 ^ t).testBit b = if b = t then !i.testBit b else i.testBit b :=
  testBit_flip i t b

/-- `Spec.cnot` flips bit `t` when bit `c` is set and changes no other bit. -/
theorem cnot_bits (t c i b : Nat) :
    (cnot t c i).testBit b = if b = t ∧ i.testBit c = true then !i.testBit b else i.testBit b := by
  unfold cnot
  by_cases hc : i.testBit c = true
  · rw [if_pos hc, testBit_flip']; simp [hc]
  · simp [hc]

/-- `Spec.exch` exchanges the bits `a` and `b`. -/
theorem exch_bits {a b : Nat} (hab : a ≠ b) (i x : Nat) :
    (exch a b i).testBit x = if x = a then i.testBit b else if x = b then i.testBit a else i.testBit x := by
  unfold exch
  by_cases h : i.testBit a = i.testBit b
  · rw [if_pos h]
    by_cases h1 : x = a
    · subst h1; simp [h]
    · by_cases h2 : x = b
      · subst h2; simp [h1, h]
      · simp [h1, h2]
  · rw [if_neg h, testBit_flip', testBit_flip']
    by_cases h1 : x = a
    · subst h1
      simp only [hab, if_false, if_true]
      revert h; cases i.testBit x <;> cases i.testBit b <;> simp
    · by_cases h2 : x = b
      · subst h2
        simp only [h1, if_false, if_true]
        revert h; cases i.testBit a <;> cases i.testBit x <;> simp
      · simp [h1, h2]

/-- **C08 (CX).** Column `j` of `CX(n, t, c)` is the basis state `j` with bit `t` flipped iff bit `c` is set. -/
theorem C08_cx (hR : Hist cfg thr thrM cs h σ os) {n t c : Nat} (ht : t < n) (hc : c < n) (htc : t ≠ c) (hn : n ≤ 30) :
    ∃ π : Nat → Nat, (∀ j b, (π j).testBit b = if b = t ∧ j.testBit c = true then !j.testBit b else j.testBit b) ∧
      Returns cfg σ (.cx n t c) .unit ∧ ∀ o σ', Exec cfg σ (.cx n t c) o σ' →
        ReadsM cfg σ' h.ms.length n (fun i j => if i = π j then 1 else 0) :=
  ⟨cnot t c, cnot_bits t c, newM_reads hR (M := permM n (cnot t c)) ⟨ht, hc, htc, by unfold NQUBITS; omega⟩ rfl hn⟩

/-- **C08 (SWAP).** Column `j` of `SWAP(n, a, b)` is the basis state `j` with bits `a` and `b` exchanged. -/
theorem C08_swap (hR : Hist cfg thr thrM cs h σ os) {n a b : Nat} (ha : a < n) (hb : b < n) (hab : a ≠ b) (hn : n ≤ 30) :
    ∃ π : Nat → Nat, (∀ j x, (π j).testBit x =
        if x = a then j.testBit b else if x = b then j.testBit a else j.testBit x) ∧
      Returns cfg σ (.swap n a b) .unit ∧ ∀ o σ', Exec cfg σ (.swap n a b) o σ' →
        ReadsM cfg σ' h.ms.length n (fun i j => if i = π j then 1 else 0) :=
  ⟨exch a b, exch_bits hab, newM_reads hR (M := permM n (exch a b)) ⟨ha, hb, hab, by unfold NQUBITS; omega⟩ rfl hn⟩

/-- **C08 (CSWAP).** Column `j` of `CSWAP(n, a, b, c)` is `j` with bits `a`, `b` exchanged if bit `c` is set, else `j`. -/
theorem C08_cswap (hR : Hist cfg thr thrM cs h σ os) {n a b c : Nat} (ha : a < n) (hb : b < n) (hc : c < n)
    (hab : a ≠ b) (hca : c ≠ a) (hcb : c ≠ b) (hn : n ≤ 30) :
    ∃ π : Nat → Nat, (∀ j x, (π j).testBit x = if j.testBit c = true then
        if x = a then j.testBit b else if x = b then j.testBit a else j.testBit x else j.testBit x) ∧
      Returns cfg σ (.cswap n a b c) .unit ∧ ∀ o σ', Exec cfg σ (.cswap n a b c) o σ' →
        ReadsM cfg σ' h.ms.length n (fun i j => if i = π j then 1 else 0) := by
  refine ⟨fun j => if j.testBit c then exch a b j else j, fun j x => ?_,
    newM_reads hR (M := permM n fun j => if j.testBit c then exch a b j else j)
      ⟨ha, hb, hc, hab, hca, hcb, by unfold NQUBITS; omega⟩ rfl hn⟩
  dsimp only
  split
  · exact exch_bits hab j x
  · rfl

theorem basis_nonzero {k x : Nat} (hx : x < 2 ^ k) : (basis k x : Vec K).Nonzero :=
  ⟨x, hx, by simp [basis]⟩

/-- **C10 (zero).** `makeZeroState(n)` reads out as `|0…0⟩` whatever was computed before. -/
theorem C10_makeZeroState (hR : Hist cfg thr thrM cs h σ os) {n : Nat} (h0 : 0 < n) (hn : n ≤ 30) :
    Returns cfg σ (.zero n) .unit ∧ ∀ o σ', Exec cfg σ (.zero n) o σ' →
      ReadsV cfg σ' h.vs.length n (fun i => if i = 0 then 1 else 0) := by
  have hp : pre NQUBITS h (.zero n) := ⟨h0, by unfold NQUBITS; omega⟩
  refine ⟨hR.returns hp rfl, fun o σ' he => ?_⟩
  exact (hR.after hp rfl he).readsV (addV_new _ _) (basis_nonzero (Nat.two_pow_pos n)) hn

/-- **C10 (one).** `makeOneState(n)` reads out as `|1…1⟩`. -/
theorem C10_makeOneState (hR : Hist cfg thr thrM cs h σ os) {n : Nat} (h0 : 0 < n) (hn : n ≤ 30) :
    Returns cfg σ (.one n) .unit ∧ ∀ o σ', Exec cfg σ (.one n) o σ' →
      ReadsV cfg σ' h.vs.length n (fun i => if i = 2 ^ n - 1 then 1 else 0) := by
  have hp : pre NQUBITS h (.one n) := ⟨h0, by unfold NQUBITS; omega⟩
  refine ⟨hR.returns hp rfl, fun o σ' he => ?_⟩
  exact (hR.after hp rfl he).readsV (addV_new _ _) (basis_nonzero (by have := Nat.two_pow_pos n; omega)) hn

end QDD.Props
