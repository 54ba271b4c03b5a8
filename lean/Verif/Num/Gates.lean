import Verif.Num.Mul
import Verif.Core.Gates
/-!
# Numerical accuracy of initial states and gate construction

Every row of the matrix a gate constructor builds is close, in the sum of moduli, to the row of the exact gate.
-/

set_option linter.unusedSectionVars false
set_option linter.unusedVariables false
set_option linter.unusedSimpArgs false

namespace QDD
namespace Num
open RoundW NumW Prog Safe
variable {W : Type} [WOps W] [RoundW W] [NumW W] {env : Env W}

local notation "ε" => NumW.eps W

variable (env) in
/-- `e` is a `k`-qubit matrix edge with at most `N` paths per row, a weight of about one at most, and rows close to those of
`F`.  (`f` selects, for each column index below `2^k`, a representative with arbitrary higher bits.) -/
structure MApx (s : St W) (k : Nat) (e : Edge W) (N : Nat) (F : Nat → Nat → ℂ) : Prop where
  ok : MOk env s k e N
  wt : ‖val e.w‖ ≤ 1 + (k + 1) * ε
  err : ∀ i (f : Nat → Nat), (∀ j < 2 ^ k, LowEq k (f j) j) →
    bsum k (fun j => ‖md s k e i (f j) - F i (f j)‖) ≤ 20 * N * ε * (k + 1)

theorem MApx.ext {s s' : St W} (hi : Safe.Inv env s) (he : Grow env s s') {k e N F} (h : MApx env s k e N F) :
    MApx env s' k e N F where
  ok := h.ok.ext he
  wt := h.wt
  err i f hf := by
    have := h.err i f hf
    refine (le_of_eq (bsum_congr fun j _ => ?_)).trans this
    rw [md_ext hi he h.ok.lv.reg]

theorem MApx.congr {s : St W} {k e N F G} (h : MApx env s k e N F) (hG : ∀ i j, F i j = G i j) : MApx env s k e N G where
  ok := h.ok
  wt := h.wt
  err i f hf := by
    have := h.err i f hf
    refine (le_of_eq (bsum_congr fun j _ => ?_)).trans this
    rw [hG]

theorem MApx.zero (s : St W) (k N : Nat) : MApx env s k zeroE N (fun _ _ => 0) where
  ok := MOk.zero s k N
  wt := by
    have e0 := eps_nn (W := W)
    simp only [zeroE, val_zero, norm_zero]; positivity
  err i f hf := by
    have e0 := eps_nn (W := W)
    simp only [md_zeroE, sub_zero, norm_zero]
    rw [show bsum k (fun _ => (0 : ℝ)) = 0 by rw [bsum_eq]; simp]
    positivity

theorem mp_none (mem : Nat → Option (MNode W)) : ∀ (k i j : Nat), mp mem k none i j = if LowEq k i j then 1 else 0
  | 0, i, j => by simp [mp, LowEq]
  | k + 1, i, j => by
    simp only [mp]
    rw [mp_none mem k, if_congr (lowEq_succ (z := k)) rfl rfl]
    by_cases hb : i.testBit k = j.testBit k <;> simp [hb]

theorem sup_none (s : St W) : ∀ (k : Nat), Sup env s k none 1
  | 0 => ⟨rfl, le_refl _⟩
  | k + 1 => .inl ⟨.inl rfl, sup_none s k⟩

theorem MApx.one (s : St W) (k : Nat) : MApx env s k oneE 1 (fun i j => if LowEq k i j then 1 else 0) where
  ok := .inr (sup_none s k)
  wt := by
    have e0 := eps_nn (W := W)
    simp only [oneE, val_one, norm_one]
    have : 0 ≤ (k : ℝ) * ε := by positivity
    linarith
  err i f hf := by
    have e0 := eps_nn (W := W)
    have : ∀ j, md s k (oneE : Edge W) i j = if LowEq k i j then 1 else 0 := fun j => by
      simp only [md, oneE, val_one, one_mul]; exact mp_none _ _ _ _
    simp only [this, sub_self, norm_zero]
    rw [show bsum k (fun _ => (0 : ℝ)) = 0 by rw [bsum_eq]; simp]
    positivity

/-- `1 + (k + 1) ε` is about one. -/
theorem wt_le {k : Nat} (hk : k ≤ NQUBITS) : 1 + ((k : ℝ) + 1) * ε ≤ 1001 / 1000 := by
  have h := eps_le (W := W)
  have e0 := eps_nn (W := W)
  have hk' : (k : ℝ) ≤ 100 := by have : k ≤ 100 := hk; exact_mod_cast this
  have : ((k : ℝ) + 1) * ε ≤ 101 * (1 / 10 ^ 8) := mul_le_mul (by linarith) h e0 (by norm_num)
  norm_num at this ⊢
  linarith

/-- Row sums over representatives. -/
theorem rowS_rep {s : St W} {k n i} {f : Nat → Nat} (hf : ∀ j < 2 ^ k, LowEq k (f j) j) :
    bsum k (fun j => ‖mp s.mt.mem k n i (f j)‖) = rowS s k n i := by
  unfold rowS
  exact bsum_congr fun j hj => by rw [mp_congr _ _ _ (fun _ _ => rfl) (hf j hj)]

/-- Building a node from accurate blocks. -/
theorem mkM_apx {s : St W} (hs : NInv env s) {k : Nat} (hk : k < NQUBITS) {ch : Bool → Bool → Edge W}
    {n : Bool → Bool → Nat} {N : Nat} (hN1 : 1 ≤ N) {F : Bool → Bool → Nat → Nat → ℂ}
    (h : ∀ r c, MApx env s k (ch r c) (n r c) (F r c)) (hN : ∀ r, n r false + n r true ≤ N) :
    Sat (nworld env) (mkM env k (ch false false) (ch false true) (ch true false) (ch true true)) s
      (fun s' e => MApx env s' (k + 1) e N (fun i j => F (i.testBit k) (j.testBit k) i j)) := by
  have e0 := eps_nn (W := W)
  have hN1' : (1 : ℝ) ≤ N := by exact_mod_cast hN1
  refine Sat.mono (mkM_num hs hk hN1 (fun r c => (h r c).ok) hN (fun r c => (h r c).wt)) ?_
  rintro s' e hi' he' ⟨h1, h2, w, h3, h4⟩
  refine ⟨h1, ?_, fun i f hf => ?_⟩
  · push_cast; linarith
  have hM : 1 + (1 + ((k : ℝ) + 1) * ε) ≤ 2001 / 1000 := by have := wt_le (W := W) (Nat.le_of_lt hk); linarith
  have hw : ∀ r c, ‖w r c - val (ch r c).w‖ ≤ 61 / 10 * ε := by
    intro r c
    refine (h3 r c).trans ?_
    have := mul_le_mul_of_nonneg_left hM e0
    linarith
  have hrow : ∀ r c, rowS s k (ch r c).n i ≤ 1001 / 1000 * (n r c + 1) := by
    intro r c
    rcases (h r c).ok with h5 | h5
    · rw [h5.2]
      have := rowS_le' hs (Nat.le_of_lt hk) (sup_none (env := env) s k) i
      have h6 : (0 : ℝ) ≤ n r c := Nat.cast_nonneg _
      push_cast at this
      linarith
    · have := rowS_le' hs (Nat.le_of_lt hk) h5 i
      linarith
  -- one half of the row
  have half : ∀ (c : Bool) (g : Nat → Nat), (∀ j < 2 ^ k, LowEq k (g j) j) → (∀ j < 2 ^ k, (g j).testBit k = c) →
      bsum k (fun j => ‖md s' (k + 1) e i (g j) - F (i.testBit k) ((g j).testBit k) i (g j)‖) ≤
        61 / 10 * ε * (1001 / 1000 * (n (i.testBit k) c + 1)) + 20 * n (i.testBit k) c * ε * (k + 1) := by
    intro c g hg hc
    have p : ∀ j < 2 ^ k, ‖md s' (k + 1) e i (g j) - F (i.testBit k) ((g j).testBit k) i (g j)‖ ≤
        61 / 10 * ε * ‖mp s.mt.mem k (ch (i.testBit k) c).n i (g j)‖ +
          ‖md s k (ch (i.testBit k) c) i (g j) - F (i.testBit k) c i (g j)‖ := by
      intro j hj
      rw [h4, hc j hj]
      have tri : w (i.testBit k) c * mp s.mt.mem k (ch (i.testBit k) c).n i (g j) - F (i.testBit k) c i (g j) =
          (w (i.testBit k) c - val (ch (i.testBit k) c).w) * mp s.mt.mem k (ch (i.testBit k) c).n i (g j) +
          (md s k (ch (i.testBit k) c) i (g j) - F (i.testBit k) c i (g j)) := by unfold md; ring
      rw [tri]
      refine (norm_add_le _ _).trans (add_le_add_left ?_ _)
      rw [norm_mul]
      exact mul_le_mul_of_nonneg_right (hw _ _) (norm_nonneg _)
    refine (bsum_le k p).trans ?_
    rw [bsum_add, bsum_mul, rowS_rep hg]
    exact add_le_add (mul_le_mul_of_nonneg_left (hrow _ _) (by positivity)) ((h _ _).err i g hg)
  have r0 := half false f (fun j hj => (hf j (by rw [Nat.pow_succ]; omega)).mono (Nat.le_succ k)) fun j hj => by
    rw [hf j (by rw [Nat.pow_succ]; omega) k (Nat.lt_succ_self k)]; exact testBit_lt hj
  have r1 := half true (fun j => f (2 ^ k + j)) (fun j hj b hb => by
      rw [hf (2 ^ k + j) (by rw [Nat.pow_succ]; omega) b (by omega)]; exact lowEq_add k j b hb) fun j hj => by
    rw [hf (2 ^ k + j) (by rw [Nat.pow_succ]; omega) k (Nat.lt_succ_self k)]; exact testBit_add hj
  show bsum k _ + bsum k _ ≤ _
  refine (add_le_add r0 r1).trans ?_
  have hN' : (n (i.testBit k) false : ℝ) + n (i.testBit k) true ≤ N := by exact_mod_cast hN (i.testBit k)
  have h5 : ε * ((n (i.testBit k) false : ℝ) + n (i.testBit k) true) ≤ ε * N := mul_le_mul_of_nonneg_left hN' e0
  have h6 : ε * (k + 1) * ((n (i.testBit k) false : ℝ) + n (i.testBit k) true) ≤ ε * (k + 1) * N :=
    mul_le_mul_of_nonneg_left hN' (by positivity)
  have h7 : ε ≤ ε * N := le_mul_of_one_le_right e0 hN1'
  push_cast
  nlinarith

/-! ## The control loops -/

theorem ctlStep_num {s : St W} (hi : NInv env s) {z : Nat} (hz : z < NQUBITS) {T : List Nat} (hT : z ∉ T)
    {cs rest : List Ctl} (hr : RestOk cs z rest) {diag : Bool} {e : Edge W} {N : Nat} (hN : 1 ≤ N) {A : Nat → Nat → ℂ}
    {D : Nat → Nat → Bool} (hD : DOk z T diag D) (he : MApx env s z e N (ent z T cs A D)) :
    Sat (nworld env) (ctlStep env z rest diag e) s (fun s' e' => MApx env s' (z + 1) e' N (ent (z + 1) T cs A D)) := by
  have hz0 := MApx.zero (env := env) s z 0
  have hid : MApx env s z (if diag = true then (oneE : Edge W) else zeroE) 1
      (fun i j => if diag = true ∧ LowEq z i j then 1 else 0) := by
    cases diag
    · simpa using MApx.zero (env := env) s z 1
    · simpa using MApx.one (env := env) s z
  -- no control here
  have plain : (∀ c ∈ cs, c.qubit ≠ z) → Sat (nworld env) (mkM env z e zeroE zeroE e) s
      (fun s' e' => MApx env s' (z + 1) e' N (ent (z + 1) T cs A D)) := by
    intro hno
    refine Sat.mono (mkM_apx (ch := fun r c => if r = c then e else zeroE) (n := fun r c => if r = c then N else 0)
      (F := fun r c => if r = c then ent z T cs A D else fun _ _ => 0) hi hz hN (fun r c => by
        by_cases h : r = c
        · simpa [h] using he
        · simpa [h] using hz0) (fun r => by cases r <;> simp)) fun s' e' _ _ h => ?_
    refine h.congr fun i j => ?_
    have hc : CtlOn (z + 1) cs i ↔ CtlOn z cs i := by
      rw [ctlOn_succ]
      exact ⟨fun h => h.1, fun h => ⟨h, fun c hc hq => (hno c hc hq).elim⟩⟩
    unfold ent
    rw [if_congr (agree_succ hT) rfl rfl, if_congr hc rfl rfl]
    by_cases hb : i.testBit z = j.testBit z <;> simp [hb]
  unfold ctlStep
  cases rest with
  | nil =>
    refine plain fun c hc hq => ?_
    have := (hr.mem c).2 ⟨hc, by omega⟩
    simp at this
  | cons c0 rest =>
    have h0 := (hr.mem c0).1 List.mem_cons_self
    have ho := List.pairwise_cons.1 hr.ord
    by_cases hq : c0.qubit = z
    · simp only [hq, if_true]
      have huniq : ∀ c ∈ cs, c.qubit = z → c = c0 := by
        intro c hc hcz
        rcases List.mem_cons.1 ((hr.mem c).2 ⟨hc, by omega⟩) with h | h
        · exact h
        · have := ho.1 c h; omega
      have hc : ∀ i, CtlOn (z + 1) cs i ↔ CtlOn z cs i ∧ i.testBit z = !c0.neg := by
        intro i
        rw [ctlOn_succ]
        constructor
        · rintro ⟨h1, h2⟩; exact ⟨h1, h2 c0 h0.1 hq⟩
        · rintro ⟨h1, h2⟩; exact ⟨h1, fun c hcs hcz => by rw [huniq c hcs hcz]; exact h2⟩
      have hDe : ∀ i j, (if diag = true ∧ LowEq z i j then (1 : ℂ) else 0) =
          if Agree z T i j then (if D i j then 1 else 0) else 0 := by
        intro i j
        rw [if_congr (hD i j).symm rfl rfl]
        by_cases h1 : Agree z T i j <;> by_cases h2 : D i j = true <;> simp [h1, h2]
      by_cases hneg : c0.neg = true
      · simp only [hneg, if_true]
        refine Sat.mono (mkM_apx (ch := fun r c => if r = c then (if r then
            (if diag = true then (oneE : Edge W) else zeroE) else e) else zeroE)
          (n := fun r c => if r = c then (if r then 1 else N) else 0)
          (F := fun r c => if r = c then (if r then
            (fun i j => if diag = true ∧ LowEq z i j then 1 else 0) else ent z T cs A D) else fun _ _ => 0) hi hz hN
          (fun r c => by
            cases r <;> cases c
            · simpa using he
            · simpa using hz0
            · simpa using hz0
            · simpa using hid)
          (fun r => by cases r <;> simp [hN])) fun s' e' _ _ h => ?_
        refine h.congr fun i j => ?_
        rw [ent, if_congr (agree_succ hT) rfl rfl, if_congr (hc i) rfl rfl, hneg]
        by_cases hb : i.testBit z = j.testBit z
        · by_cases hb1 : j.testBit z = true
          · simp [hb, hb1, hDe]
          · simp [hb, hb1, ent]
        · simp [hb]
      · simp only [hneg, Bool.false_eq_true, if_false]
        refine Sat.mono (mkM_apx (ch := fun r c => if r = c then (if r then e else
            (if diag = true then (oneE : Edge W) else zeroE)) else zeroE)
          (n := fun r c => if r = c then (if r then N else 1) else 0)
          (F := fun r c => if r = c then (if r then ent z T cs A D else
            (fun i j => if diag = true ∧ LowEq z i j then 1 else 0)) else fun _ _ => 0) hi hz hN
          (fun r c => by
            cases r <;> cases c
            · simpa using hid
            · simpa using hz0
            · simpa using hz0
            · simpa using he)
          (fun r => by cases r <;> simp [hN])) fun s' e' _ _ h => ?_
        refine h.congr fun i j => ?_
        rw [ent, if_congr (agree_succ hT) rfl rfl, if_congr (hc i) rfl rfl]
        by_cases hb : i.testBit z = j.testBit z
        · by_cases hb1 : j.testBit z = true
          · simp [hb, hb1, ent, hneg]
          · simp [hb, hb1, hDe, hneg]
        · simp [hb]
    · simp only [hq, if_false]
      refine plain fun c hc hcz => ?_
      rcases List.mem_cons.1 ((hr.mem c).2 ⟨hc, by omega⟩) with h | h
      · exact hq (h ▸ hcz)
      · have := ho.1 c h; omega

/-- All cells of `idx` hold the entries `A r c`. -/
def GridNum (env : Env W) (s : St W) (z : Nat) (T : List Nat) (cs : List Ctl) (idx : List (Nat × Nat)) (N : Nat)
    (A : Nat → Nat → Nat → Nat → ℂ) (D : Nat → Nat → Nat → Nat → Bool) (E : Grid W) : Prop :=
  ∀ x ∈ idx, MApx env s z (E x.1 x.2) N (ent z T cs (A x.1 x.2) (D x.1 x.2))

theorem GridNum.ext {s s' : St W} (hi : NInv env s) (he : Grow env s s') {z T cs idx N A D E}
    (h : GridNum env s z T cs idx N A D E) : GridNum env s' z T cs idx N A D E := fun x hx => (h x hx).ext hi.base he

theorem ctlRow_num {z : Nat} (hz : z < NQUBITS) {T : List Nat} (hT : z ∉ T) {cs rest : List Ctl}
    (hr : RestOk cs z rest) {N : Nat} (hN : 1 ≤ N) {A : Nat → Nat → Nat → Nat → ℂ} {D : Nat → Nat → Nat → Nat → Bool} :
    ∀ (idx : List (Nat × Nat)) {s : St W} {E : Grid W}, NInv env s → idx.Nodup →
    (∀ x ∈ idx, DOk z T (x.1 == x.2) (D x.1 x.2)) → GridNum env s z T cs idx N A D E →
    Sat (nworld env) (ctlRow env z rest idx E) s (fun s' E' => GridNum env s' (z + 1) T cs idx N A D E' ∧
      ∀ r c, (r, c) ∉ idx → E' r c = E r c) := by
  intro idx
  induction idx with
  | nil => intro s E hi _ _ _; exact Sat.pure fun s' _ _ => ⟨fun x hx => by simp at hx, fun _ _ _ => rfl⟩
  | cons x idx ih =>
    obtain ⟨r, c⟩ := x
    intro s E hi hnd hD hE
    have hnd' := List.nodup_cons.1 hnd
    unfold ctlRow
    refine Sat.bind (ctlStep_num hi hz hT hr hN (hD (r, c) List.mem_cons_self) (hE (r, c) List.mem_cons_self))
      fun s1 e hi1 he1 h1 => ?_
    have hput : ∀ x y, ¬ (x = r ∧ y = c) → (Grid.put E r c e) x y = E x y := fun x y h => if_neg h
    refine Sat.mono (ih hi1 hnd'.2 (fun x hx => hD x (List.mem_cons_of_mem _ hx)) ?_) ?_
    · intro x hx
      have hne : ¬ (x.1 = r ∧ x.2 = c) := fun h => hnd'.1 (by
        have : x = (r, c) := Prod.ext h.1 h.2
        exact this ▸ hx)
      rw [hput _ _ hne]
      exact (hE x (List.mem_cons_of_mem _ hx)).ext hi.base he1
    · rintro s2 E2 hi2 he2 ⟨h2, h3⟩
      refine ⟨fun x hx => ?_, fun x y hxy => ?_⟩
      · rcases List.mem_cons.1 hx with rfl | hx
        · rw [h3 r c hnd'.1]
          simp only [Grid.put, and_self, if_true]
          exact h1.ext hi1.base he2
        · exact h2 x hx
      · have hxy' : ¬ ((x, y) = (r, c)) ∧ (x, y) ∉ idx := by simpa [not_or] using hxy
        rw [h3 x y hxy'.2, hput x y (fun h => hxy'.1 (by rw [h.1, h.2]))]

theorem ctlLoop_num {idx : List (Nat × Nat)} (hnd : idx.Nodup) {T : List Nat} {cs : List Ctl} {N : Nat} (hN : 1 ≤ N)
    {A : Nat → Nat → Nat → Nat → ℂ} {D : Nat → Nat → Nat → Nat → Bool} :
    ∀ (n z : Nat) {rest : List Ctl} {s : St W} {E : Grid W}, z + n ≤ NQUBITS → (∀ b, z ≤ b → b < z + n → b ∉ T) →
    RestOk cs z rest → NInv env s → (∀ x ∈ idx, DOk z T (x.1 == x.2) (D x.1 x.2)) →
    GridNum env s z T cs idx N A D E →
    Sat (nworld env) (ctlLoop env idx n z rest E) s (fun s' x => GridNum env s' (z + n) T cs idx N A D x.1 ∧
      RestOk cs (z + n) x.2 ∧ ∀ x ∈ idx, DOk (z + n) T (x.1 == x.2) (D x.1 x.2)) := by
  intro n
  induction n with
  | zero =>
    intro z rest s E _ _ hr hi hD hE
    exact Sat.pure fun s' _ he => ⟨hE.ext hi he, hr, hD⟩
  | succ n ih =>
    intro z rest s E hn hT hr hi hD hE
    have hzT : z ∉ T := hT z (le_refl _) (by omega)
    unfold ctlLoop
    refine Sat.bind (ctlRow_num (by omega) hzT hr hN idx hi hnd hD hE) fun s1 E1 hi1 he1 h1 => ?_
    have := ih (z + 1) (by omega) (fun b h1 h2 => hT b (by omega) (by omega)) hr.next hi1
      (fun x hx => (hD x hx).succ hzT) h1.1
    rwa [show z + 1 + n = z + (n + 1) by omega] at this

theorem aboveLoop_num {q z : Nat} (hzq : z ≤ q) (hq : q ≤ NQUBITS) {T : List Nat} (hT : ∀ t ∈ T, t < z)
    {cs rest : List Ctl} {N : Nat} (hN : 1 ≤ N) {A : Nat → Nat → ℂ} {D : Nat → Nat → Bool} {s : St W} {e : Edge W}
    (hr : RestOk cs z rest) (hi : NInv env s) (hD : DOk z T true D) (he : MApx env s z e N (ent z T cs A D)) :
    Sat (nworld env) (aboveLoop env q z rest e) s (fun s' e' => MApx env s' q e' N (ent q T cs A D)) := by
  unfold aboveLoop
  have hl := ctlLoop_num (env := env) (idx := [(0, 0)]) (by simp) (T := T) (cs := cs) hN (A := fun _ _ => A)
    (D := fun _ _ => D) (q - z) z (rest := rest) (s := s) (E := fun _ _ => e) (by omega)
    (fun b hb _ ht => by have := hT b ht; omega) hr hi (by simpa using hD) (by
      intro x hx
      exact he)
  refine Sat.bind hl fun s1 x hi1 he1 h1 => ?_
  obtain ⟨E, cs'⟩ := x
  refine Sat.pure fun s' _ he' => ?_
  have := (h1.1 (0, 0) (by simp)).ext hi1.base he'
  rwa [show z + (q - z) = q by omega] at this

theorem term_num (s : St W) (T : List Nat) (cs : List Ctl) {w : W} {x : ℂ} (hw : ‖val w - x‖ ≤ ε) (hx : ‖x‖ ≤ 1)
    (D : Nat → Nat → Bool) : MApx env s 0 ⟨w, none⟩ 1 (ent 0 T cs (fun _ _ => x) D) where
  ok := .inr ⟨rfl, le_refl _⟩
  wt := by
    have := norm_add_le (val w - x) x
    rw [sub_add_cancel] at this
    simp only; push_cast; linarith
  err i f hf := by
    have e0 := eps_nn (W := W)
    simp [bsum, md, mp, ent, Agree, CtlOn]
    linarith

/-- Assembling four cells at a target level. -/
theorem combine_num {s : St W} (hi : NInv env s) {z : Nat} (hz : z < NQUBITS) {T : List Nat} (hT : z ∈ T) {cs : List Ctl}
    (hcs : ∀ c ∈ cs, c.qubit ≠ z) {N : Nat} (hN : 1 ≤ N) {E : Bool → Bool → Edge W} {A : Bool → Bool → Nat → Nat → ℂ}
    {D : Bool → Bool → Nat → Nat → Bool} (h : ∀ r c, MApx env s z (E r c) N (ent z T cs (A r c) (D r c))) :
    Sat (nworld env) (mkM env z (E false false) (E false true) (E true false) (E true true)) s
      (fun s' e => MApx env s' (z + 1) e (2 * N) (ent (z + 1) T cs (fun i j => A (i.testBit z) (j.testBit z) i j)
        (fun i j => D (i.testBit z) (j.testBit z) i j))) := by
  refine Sat.mono (mkM_apx (ch := E) (n := fun _ _ => N) (F := fun r c => ent z T cs (A r c) (D r c)) hi hz
    (N := 2 * N) (by omega) h (fun r => by show N + N ≤ 2 * N; omega)) fun s' e _ _ hr => hr.congr fun i j => ?_
  have hc : CtlOn (z + 1) cs i ↔ CtlOn z cs i := by
    rw [ctlOn_succ]
    exact ⟨fun h => h.1, fun h => ⟨h, fun c hc hq => (hcs c hc hq).elim⟩⟩
  unfold ent
  rw [if_congr (agree_skip hT) rfl rfl, if_congr hc rfl rfl]

/-- Accuracy of `makeGate`, for entries within `ε` of the exact ones. -/
theorem makeGate_num {s : St W} (hi : NInv env s) {q t : Nat} (ht : t < q) (hq : q ≤ NQUBITS) {cs : List Ctl}
    (hord : cs.Pairwise (fun a b => a.qubit < b.qubit)) (hcs : ∀ c ∈ cs, c.qubit ≠ t) {g : Nat → Nat → W}
    {u : Nat → Nat → ℂ} (hg : ∀ r c, r < 2 → c < 2 → ‖val (g r c) - u r c‖ ≤ ε ∧ ‖u r c‖ ≤ 1) :
    Sat (nworld env) (makeGate env q g t cs) s (fun s' e => MApx env s' q e 2 (gate1 q u t cs)) := by
  unfold makeGate
  have hl := ctlLoop_num (env := env) (idx := idx2) (by decide) (T := [t]) (cs := cs) (le_refl 1) (A := fun r c _ _ => u r c)
    (D := fun r c _ _ => r == c) t 0 (rest := cs) (s := s) (E := fun r c => ⟨g r c, none⟩) (by omega)
    (fun b hb hbt h => by simp at h; omega) (RestOk.start hord) hi
    (fun x _ i j => by
      simp only [Agree, LowEq]
      constructor
      · rintro ⟨_, h⟩; exact ⟨h, fun b hb => by omega⟩
      · rintro ⟨h, _⟩; exact ⟨fun b hb => by omega, h⟩)
    (fun x hx => by
      have hx' : x.1 < 2 ∧ x.2 < 2 := by revert x; decide
      obtain ⟨a, b⟩ := hg _ _ hx'.1 hx'.2
      exact term_num s _ _ a b _)
  refine Sat.bind hl fun s1 x hi1 he1 h1 => ?_
  obtain ⟨E, rest⟩ := x
  obtain ⟨hE, hrest, hD⟩ := h1
  simp only [Nat.zero_add] at hE hrest hD ⊢
  have hidx : ∀ r c : Bool, (nb r, nb c) ∈ idx2 := by decide
  have hcomb := combine_num (env := env) hi1 (z := t) (by omega) (T := [t]) (by simp) hcs (le_refl 1)
    (E := fun r c => E (nb r) (nb c)) (A := fun r c _ _ => u (nb r) (nb c)) (D := fun r c _ _ => nb r == nb c)
    (fun r c => hE _ (hidx r c))
  refine Sat.bind hcomb fun s2 e hi2 he2 h2 => ?_
  refine Sat.mono (aboveLoop_num (q := q) (z := t + 1) (by omega) hq (T := [t]) (by simp) (N := 2) (by omega)
    (hrest.skip hcs) hi2 ?_ h2) fun s3 e3 _ _ h3 => h3.congr fun i j => ?_
  · intro i j
    rw [agree_skip (by simp), lowEq_succ]
    have hnb : ∀ a b : Bool, (nb a == nb b) = true ↔ a = b := by decide
    constructor
    · rintro ⟨h1, h2⟩
      refine ⟨rfl, (hnb _ _).1 h2, fun b hb => h1 b hb (by simp; omega)⟩
    · rintro ⟨_, h1, h2⟩
      exact ⟨fun b hb _ => h2 b hb, (hnb _ _).2 h1⟩
  · have hnb : ∀ a b : Bool, (nb a == nb b) = true ↔ a = b := by decide
    unfold ent gate1 CtlOn Agree
    simp only [List.mem_singleton, hnb]

theorem sub4Edge_num {s : St W} (hi : NInv env s) {t0 t1 : Nat} (hne : t0 ≠ t1) (hz : min t0 t1 < NQUBITS)
    {cs : List Ctl} (hcs : ∀ c ∈ cs, c.qubit ≠ t0 ∧ c.qubit ≠ t1) {E : Grid W} {g : Nat → Nat → ℂ}
    (hE : GridNum env s (min t0 t1) [t0, t1] cs idx4 1 (fun r c _ _ => g r c) (fun r c _ _ => r == c) E) (b1 b0 : Bool) :
    Sat (nworld env) (sub4Edge env t0 t1 E (nb b1) (nb b0)) s
      (fun s' e => MApx env s' (min t0 t1 + 1) e 2 (ent (min t0 t1 + 1) [t0, t1] cs
        (fun i j => g (ix4 t0 t1 (nb b1) (nb (i.testBit (min t0 t1)))) (ix4 t0 t1 (nb b0) (nb (j.testBit (min t0 t1)))))
        (fun i j => ix4 t0 t1 (nb b1) (nb (i.testBit (min t0 t1))) == ix4 t0 t1 (nb b0) (nb (j.testBit (min t0 t1)))))) := by
  have hmem : min t0 t1 ∈ [t0, t1] := by simp; omega
  have hix : ∀ r c i j : Bool, (ix4 t0 t1 (nb r) (nb i), ix4 t0 t1 (nb c) (nb j)) ∈ idx4 := by
    unfold ix4; split <;> decide
  have hsub : ∀ i j : Bool, sub4 t0 t1 E (nb b1) (nb b0) (nb i) (nb j) =
      E (ix4 t0 t1 (nb b1) (nb i)) (ix4 t0 t1 (nb b0) (nb j)) := by
    intro i j; unfold sub4 ix4; split <;> rfl
  exact combine_num (env := env) hi hz hmem (fun c hc => by have := hcs c hc; omega) (le_refl 1)
    (E := fun i j => sub4 t0 t1 E (nb b1) (nb b0) (nb i) (nb j))
    (A := fun i j _ _ => g (ix4 t0 t1 (nb b1) (nb i)) (ix4 t0 t1 (nb b0) (nb j)))
    (D := fun i j _ _ => ix4 t0 t1 (nb b1) (nb i) == ix4 t0 t1 (nb b0) (nb j))
    (fun i j => by rw [hsub]; exact hE _ (hix b1 b0 i j))

/-- Accuracy of `makeTwoQubitGate`, for entries within `ε` of the exact ones. -/
theorem makeTwoQubitGate_num {s : St W} (hi : NInv env s) {q t0 t1 : Nat} (ht0 : t0 < q) (ht1 : t1 < q)
    (hne : t0 ≠ t1) (hq : q ≤ NQUBITS) {cs : List Ctl} (hord : cs.Pairwise (fun a b => a.qubit < b.qubit))
    (hcs : ∀ c ∈ cs, c.qubit ≠ t0 ∧ c.qubit ≠ t1) {h : Nat → Nat → W}
    {g : Nat → Nat → ℂ} (hg : ∀ r c, r < 4 → c < 4 → ‖val (h r c) - g r c‖ ≤ ε ∧ ‖g r c‖ ≤ 1) :
    Sat (nworld env) (makeTwoQubitGate env q h t0 t1 cs) s
      (fun s' e => MApx env s' q e 4 (gate2 q g t0 t1 cs)) := by
  unfold makeTwoQubitGate
  have hl := ctlLoop_num (env := env) (idx := idx4) (by decide) (T := [t0, t1]) (cs := cs) (le_refl 1) (A := fun r c _ _ => g r c)
    (D := fun r c _ _ => r == c) (min t0 t1) 0 (rest := cs) (s := s) (E := fun r c => ⟨h r c, none⟩) (by omega)
    (fun b hb hbt h => by simp at h; omega) (RestOk.start hord) hi
    (fun x _ i j => by
      simp only [Agree, LowEq]
      constructor
      · rintro ⟨_, h⟩; exact ⟨h, fun b hb => by omega⟩
      · rintro ⟨h, _⟩; exact ⟨fun b hb => by omega, h⟩)
    (fun x hx => by
      have hx' : x.1 < 4 ∧ x.2 < 4 := by revert x; decide
      obtain ⟨a, b⟩ := hg _ _ hx'.1 hx'.2
      exact term_num s _ _ a b _)
  refine Sat.bind hl fun s1 x hi1 he1 h1 => ?_
  obtain ⟨E, rest⟩ := x
  obtain ⟨hE, hrest, hD⟩ := h1
  simp only [Nat.zero_add] at hE hrest hD ⊢
  have hz : min t0 t1 < NQUBITS := by omega
  refine Sat.bind (sub4Edge_num hi1 hne hz hcs hE false false) fun s2 e00 hi2 he2 r00 => ?_
  refine Sat.bind (sub4Edge_num hi2 hne hz hcs (hE.ext hi1 he2) false true) fun s3 e01 hi3 he3 r01 => ?_
  refine Sat.bind (sub4Edge_num hi3 hne hz hcs ((hE.ext hi1 he2).ext hi2 he3) true false)
    fun s4 e10 hi4 he4 r10 => ?_
  refine Sat.bind (sub4Edge_num hi4 hne hz hcs (((hE.ext hi1 he2).ext hi2 he3).ext hi3 he4) true true)
    fun s5 e11 hi5 he5 r11 => ?_
  replace r00 := ((r00.ext hi2.base he3).ext hi3.base he4).ext hi4.base he5
  replace r01 := (r01.ext hi3.base he4).ext hi4.base he5
  replace r10 := r10.ext hi4.base he5
  have hmem : min t0 t1 ∈ [t0, t1] := by simp; omega
  have hmaxm : max t0 t1 ∈ [t0, t1] := by simp; omega
  have hixi : ∀ r c i j : Bool, (ix4 t0 t1 (nb r) (nb i) == ix4 t0 t1 (nb c) (nb j)) = true ↔ (r = c ∧ i = j) := by
    unfold ix4; split <;> decide
  let m := min t0 t1
  have hl2 := ctlLoop_num (env := env) (idx := idx2) (by decide) (T := [t0, t1]) (cs := cs) (N := 2) (by omega)
    (A := fun r c i j => g (ix4 t0 t1 r (nb (i.testBit m))) (ix4 t0 t1 c (nb (j.testBit m))))
    (D := fun r c i j => ix4 t0 t1 r (nb (i.testBit m)) == ix4 t0 t1 c (nb (j.testBit m)))
    (max t0 t1 - (m + 1)) (m + 1) (rest := rest) (s := s5)
    (E := fun r c => if r = 0 then (if c = 0 then e00 else e01) else (if c = 0 then e10 else e11))
    (by omega) (fun b hb hbt h => by simp at h; omega)
    (hrest.skip (fun c hc => by have := hcs c hc; omega)) hi5
    (by
      intro x hx i j
      have hx' : ∃ r c : Bool, x = (nb r, nb c) := by
        revert x; decide
      obtain ⟨r, c, rfl⟩ := hx'
      have hnb : ∀ a b : Bool, (nb a == nb b) = true ↔ a = b := by decide
      rw [agree_skip hmem, lowEq_succ]
      simp only [hixi, hnb]
      constructor
      · rintro ⟨h1, h2, h3⟩
        exact ⟨h2, h3, fun b hb => h1 b hb (by simp; omega)⟩
      · rintro ⟨h1, h2, h3⟩
        exact ⟨fun b hb _ => h3 b hb, h1, h2⟩)
    (by
      intro x hx
      have hx' : x = (nb false, nb false) ∨ x = (nb false, nb true) ∨ x = (nb true, nb false) ∨
          x = (nb true, nb true) := by
        revert x; decide
      rcases hx' with rfl | rfl | rfl | rfl
      · exact r00
      · exact r01
      · exact r10
      · exact r11)
  refine Sat.bind hl2 fun s6 x hi6 he6 h6 => ?_
  obtain ⟨E2, rest2⟩ := x
  obtain ⟨hE2, hrest2, hD2⟩ := h6
  have hzz : m + 1 + (max t0 t1 - (m + 1)) = max t0 t1 := by omega
  have hzm : max (max t0 t1) (m + 1) = max t0 t1 := by omega
  rw [hzz] at hE2 hrest2 hD2
  dsimp only
  rw [show min t0 t1 + 1 = m + 1 from rfl, hzm]
  have hidx : ∀ r c : Bool, (nb r, nb c) ∈ idx2 := by decide
  have hcomb := combine_num (env := env) hi6 (z := max t0 t1) (by omega) (T := [t0, t1]) hmaxm
    (fun c hc => by have := hcs c hc; omega) (N := 2) (by omega)
    (E := fun r c => E2 (nb r) (nb c))
    (A := fun r c i j => g (ix4 t0 t1 (nb r) (nb (i.testBit m))) (ix4 t0 t1 (nb c) (nb (j.testBit m))))
    (D := fun r c i j => ix4 t0 t1 (nb r) (nb (i.testBit m)) == ix4 t0 t1 (nb c) (nb (j.testBit m)))
    (fun r c => hE2 _ (hidx r c))
  refine Sat.bind hcomb fun s7 e hi7 he7 h7 => ?_
  have hix : ∀ i : Nat, ix4 t0 t1 (nb (i.testBit (max t0 t1))) (nb (i.testBit m)) =
      2 * nb (i.testBit t0) + nb (i.testBit t1) := by
    intro i
    unfold ix4
    split
    · next h => rw [show max t0 t1 = t0 by omega, show m = t1 by omega]; omega
    · next h => rw [show max t0 t1 = t1 by omega, show m = t0 by omega]; omega
  have hbits : ∀ i j : Nat, (i.testBit (max t0 t1) = j.testBit (max t0 t1) ∧ i.testBit m = j.testBit m) ↔
      (i.testBit t0 = j.testBit t0 ∧ i.testBit t1 = j.testBit t1) := by
    intro i j
    by_cases h : t1 < t0
    · rw [show max t0 t1 = t0 by omega, show m = t1 by omega]
    · rw [show max t0 t1 = t1 by omega, show m = t0 by omega]; tauto
  refine Sat.mono (aboveLoop_num (q := q) (z := max t0 t1 + 1) (by omega) hq (T := [t0, t1]) 
    (by intro t ht; simp at ht; omega) (N := 2 * 2) (by omega) (hrest2.skip (fun c hc => by have := hcs c hc; omega)) hi7 ?_ h7)
    fun s8 e8 _ _ h8 => h8.congr fun i j => ?_
  · intro i j
    rw [agree_skip hmaxm, lowEq_succ]
    simp only [hixi, true_and]
    constructor
    · rintro ⟨h1, h2, h3⟩
      refine ⟨h2, fun b hb => ?_⟩
      by_cases hbm : b = m
      · rw [hbm]; exact h3
      · exact h1 b hb (by simp; omega)
    · rintro ⟨h1, h2⟩
      exact ⟨fun b hb _ => h2 b hb, h1, h2 m (by omega)⟩
  · unfold ent gate2 CtlOn Agree
    have hD' : ∀ i j : Nat, (2 * nb (i.testBit t0) + nb (i.testBit t1) == 2 * nb (j.testBit t0) + nb (j.testBit t1)) = true ↔
        (i.testBit t0 = j.testBit t0 ∧ i.testBit t1 = j.testBit t1) := fun i j => by
      rw [← hix, ← hix, hixi, hbits]
    simp only [hix, hD', List.mem_cons, List.not_mem_nil, or_false, not_or, and_imp, ne_eq]

end Num
end QDD
