import Verif.Num.Norm
import Verif.Num.MatRow
import Verif.Safe.Machine
/-!
# Numerical accuracy of whole histories of API calls

The machine is that of `Safe/Machine.lean`: rounded arithmetic with tolerances, any hash functions, any schedule.  Beside it
runs the specification `Spec.step` (Api/Spec.lean) over exact real numbers.  `Cost` counts, for every live handle, the calls
its value went through.
-/

set_option linter.unusedSectionVars false
set_option linter.unusedVariables false
set_option linter.unusedSimpArgs false

namespace QDD.Num
open RoundW NumW Prog Safe
open Finset (range mem_range)
open Spec (C Vec Mat Heap Cmd Ctrl permM cnot exch)

variable {R W : Type} [WOps W] [ROps R W] [RoundW W] [NumW W] {env : Env W}

local notation "ε" => NumW.eps W

/-- The 2-norm error one call can add to a state of `k` qubits. -/
noncomputable def kap (W : Type) [WOps W] [RoundW W] [NumW W] (k : Nat) : ℝ := √(2 ^ k) * (1100 * NumW.eps W * ((k : ℝ) + 1) ^ 2)

/-- Bookkeeping for a matrix handle: a bound on the non-zero entries in a row, and a count of the row-sum errors it has
collected, in units of `100 ε (k+1)²`. -/
structure MCost where
  rows : Nat
  err : Nat

/-- A product of matrices. -/
def MCost.mul (x y : MCost) : MCost :=
  ⟨x.rows * y.rows, 3 * x.rows ^ 2 * y.rows + 2 * y.rows * x.err + 2 * x.rows * y.err⟩

/-- A collection may replace shared nodes by equal ones. -/
def MCost.collected (x : MCost) : MCost := ⟨x.rows, x.err + (x.rows + 3) / 4⟩

/-- How many calls the value of each vector and matrix handle went through. -/
structure Cost where
  vs : List Nat
  ms : List MCost

/-- What is known of a matrix handle. -/
def Cost.mat (q : Cost) (m : Nat) : MCost := q.ms.getD m ⟨0, 0⟩

/-- The counts after a call: a product adds those of its operands, a collection adds to the handles kept.  SWAP is built by two
products of controlled-nots. -/
def Cost.after (q : Cost) : Safe.Call R W → Cost
  | .zero _ | .one _ => { q with vs := q.vs ++ [1] }
  | .gate _ _ _ _ | .cx _ _ _ => { q with ms := q.ms ++ [⟨2, 1⟩] }
  | .gate2 _ _ _ _ _ | .cswap _ _ _ _ => { q with ms := q.ms ++ [⟨4, 1⟩] }
  | .swap _ _ _ => { q with ms := q.ms ++ [⟨8, 184⟩] }
  | .mmul a b => { q with ms := q.ms ++ [(q.mat a).mul (q.mat b)] }
  | .mv m v => { q with vs := q.vs ++ [q.vs.getD v 0 + (q.mat m).err] }
  | .gc _ keep => { q with vs := keep.map fun i => q.vs.getD i 0 + 1 }
  | .gcMat _ keep => { q with ms := keep.map fun i => (q.mat i).collected }
  | _ => q

/-- The call made to the engine, and the exact call it stands for: gate entries are doubles within `ε` of the entries of an
exact unitary. -/
inductive Rounded : Safe.Call R W → Cmd ℝ → Prop
  | zero (n) : Rounded (.zero n) (.zero n)
  | one (n) : Rounded (.one n) (.one n)
  | gate {n t cs} {g : Nat → Nat → W} {u : Nat → Nat → C ℝ} (hu : Props.Isometry 1 u) (hg : ∀ r < 2, ∀ c < 2, ‖val (g r c) - toC (u r c)‖ ≤ ε) :
      Rounded (.gate n g t (Api.ctl cs)) (.gate n u t cs)
  | gate2 {n t0 t1 cs} {g : Nat → Nat → W} {u : Nat → Nat → C ℝ} (hu : Props.Isometry 2 u) (hg : ∀ r < 4, ∀ c < 4, ‖val (g r c) - toC (u r c)‖ ≤ ε) :
      Rounded (.gate2 n g t0 t1 (Api.ctl cs)) (.gate2 n u t0 t1 cs)
  | cx (n t c) : Rounded (.cx n t c) (.cx n t c)
  | cswap (n t0 t1 c) : Rounded (.cswap n t0 t1 c) (.cswap n t0 t1 c)
  | swap (n t0 t1) : Rounded (.swap n t0 t1) (.swap n t0 t1)
  | mmul (a b) : Rounded (.mmul a b) (.mmul a b)
  | mv (m v) : Rounded (.mv m v) (.mv m v)
  | gc (force keep) : Rounded (.gc force keep) (.gc force keep)
  | gcMat (force keep) : Rounded (.gcMat force keep) (.gcMat force keep)
  | getVector (v) : Rounded (.getVector v) (.getVector v)

/-- The error budget: the states a call uses have an error bound of at most one; the qubit counts of a product agree;
the row sums of a product of matrices are accurate to a thousandth. -/
def Budget (h : Heap ℝ) (q : Cost) : Safe.Call R W → Prop
  | .mv m v => ∀ M V, h.ms[m]? = some M → h.vs[v]? = some V → M.k = V.k ∧ kap W V.k * q.vs.getD v 0 ≤ 1
  | .mmul a b => ∀ A B, h.ms[a]? = some A → h.ms[b]? = some B →
      A.k = B.k ∧ 100 * NumW.eps W * ((A.k : ℝ) + 1) ^ 2 * ((q.mat a).mul (q.mat b)).err ≤ 1 / 1000
  | .swap n _ _ => 100 * NumW.eps W * ((n : ℝ) + 1) ^ 2 * 184 ≤ 1 / 1000
  | .gc _ keep => ∀ i ∈ keep, ∀ V, h.vs[i]? = some V → kap W V.k * q.vs.getD i 0 ≤ 1
  | .getVector v => ∀ V, h.vs[v]? = some V → kap W V.k * q.vs.getD v 0 < 1
  | _ => True

/-- The array a read-out returned is within `δ` of the state `V` in 2-norm. -/
def Reads (o : Out R W) (V : Vec ℝ) (δ : ℝ) : Prop :=
  ∃ a, o = .vec a ∧ a.dim = 2 ^ V.k ∧ ∃ x : Nat → W, (∀ i < 2 ^ V.k, a.cell i = some (x i)) ∧
    n2 V.k (fun i => val (x i) - toC (V.f i)) ≤ δ

/-- Program start, then calls in any schedule; the specification makes the exact calls. -/
inductive Run (env : Env W) (mt : Bool) (thr thrM : Nat) : List (Safe.Call R W) → Heap ℝ → Cost → Safe.Sys R W → Prop
  | init : Run env mt thr thrM [] ⟨[], []⟩ ⟨[], []⟩ (Safe.Sys.init thr thrM)
  | call {cs h q σ c c' h' o o' σ'} : Run env mt thr thrM cs h q σ → Rounded c c' → Spec.pre NQUBITS h c' →
      Budget h q c → Spec.step Real.sqrt h c' = some (h', o') → Safe.Exec env mt σ c o σ' →
      Run env mt thr thrM (cs ++ [c]) h' (q.after c) σ'

/-! ## Relation between the machine and the specification -/

/-- Three lists of equal length, related pointwise. -/
inductive F3 {α β γ : Type} (P : α → β → γ → Prop) : List α → List β → List γ → Prop
  | nil : F3 P [] [] []
  | cons {a b c as bs cs} : P a b c → F3 P as bs cs → F3 P (a :: as) (b :: bs) (c :: cs)

section f3
variable {α β γ δ : Type} {P Q : α → β → γ → Prop}

theorem getD_of' {α : Type} {l : List α} {i : Nat} {x z : α} (h : l[i]? = some x) : l.getD i z = x := by
  rw [List.getD_eq_getElem?_getD, h]; rfl

theorem F3.imp {as bs cs} (h : F3 P as bs cs) (hi : ∀ a b c, P a b c → Q a b c) : F3 Q as bs cs := by
  induction h with
  | nil => exact .nil
  | cons h _ ih => exact .cons (hi _ _ _ h) ih

theorem F3.snoc {as bs cs} (h : F3 P as bs cs) {a b c} (hp : P a b c) : F3 P (as ++ [a]) (bs ++ [b]) (cs ++ [c]) := by
  induction h with
  | nil => exact .cons hp .nil
  | cons h _ ih => exact .cons h ih

theorem F3.get {as bs cs} (h : F3 P as bs cs) : ∀ {i : Nat} {a : α}, as[i]? = some a →
    ∃ b c, bs[i]? = some b ∧ cs[i]? = some c ∧ P a b c := by
  induction h with
  | nil => intro i a h; simp at h
  | cons h1 _ ih =>
    intro i a hi
    cases i with
    | zero => simp at hi; subst hi; exact ⟨_, _, rfl, rfl, h1⟩
    | succ i => simpa using ih (by simpa using hi)

theorem F3.comp {Rl : γ → δ → Prop} {T : α → β → δ → Prop} (ht : ∀ a b c d, P a b c → Rl c d → T a b d) {as bs cs}
    (h : F3 P as bs cs) : ∀ {ds : List δ}, List.Forall₂ Rl cs ds → F3 T as bs ds := by
  induction h with
  | nil => intro ds h; cases h; exact .nil
  | cons h _ ih => intro ds h'; cases h' with | cons h1 h2 => exact .cons (ht _ _ _ _ h h1) (ih h2)

theorem F3.mem {as bs cs} (h : F3 P as bs cs) : ∀ c ∈ cs, ∃ a b, P a b c := by
  induction h with
  | nil => intro c h; cases h
  | cons h1 _ ih =>
    intro c hc
    rcases List.mem_cons.1 hc with rfl | hc
    · exact ⟨_, _, h1⟩
    · exact ih c hc

theorem F3.map2 {f : β → β} {T : α → β → γ → Prop} {as bs cs} (h : F3 P as bs cs) (ht : ∀ a b c, P a b c → T a (f b) c) :
    F3 T as (bs.map f) cs := by
  induction h with
  | nil => exact .nil
  | cons h _ ih => exact .cons (ht _ _ _ h) ih

theorem F3.keep {T : α → β → Edge W → Prop} {Q : α → β → Prop} {as bs cs} (h : F3 T as bs cs) (z : β) : ∀ {keep : List Nat} {as'},
    keep.mapM (fun i => as[i]?) = some as' → (∀ i ∈ keep, ∀ a, as[i]? = some a → Q a (bs.getD i z)) →
    ∃ es, keep.mapM (handle cs) = (pure es : QDD.P W _) ∧
      F3 (fun a b c => T a b c ∧ Q a b) as' (keep.map fun i => bs.getD i z) es := by
  intro keep
  induction keep with
  | nil => intro as' h1 _; simp at h1; subst h1; exact ⟨[], rfl, .nil⟩
  | cons i keep ih =>
    intro as' h1 h2
    rw [List.mapM_cons] at h1
    simp only [Option.bind_eq_bind, Option.bind_eq_some_iff] at h1
    obtain ⟨a, ha, as1, has1, he⟩ := h1
    have he : as' = a :: as1 := by simpa using he.symm
    subst he
    obtain ⟨es, h3, h4⟩ := ih has1 fun j hj => h2 j (List.mem_cons_of_mem _ hj)
    obtain ⟨b, c, g1, g2, g3⟩ := h.get ha
    have hb : bs.getD i z = b := getD_of' g1
    refine ⟨c :: es, ?_, ?_⟩
    · rw [List.mapM_cons, h3, handle_bind g2]
      rfl
    · have := h2 i List.mem_cons_self a ha
      rw [List.map_cons, hb]
      rw [hb] at this
      exact .cons ⟨g3, this⟩ h4

end f3

variable (env) in
/-- A vector handle and the state it stands for. -/
structure VNear (s : St W) (V : Vec ℝ) (c : Nat) (e : Edge W) : Prop where
  pos : 0 < V.k
  le : V.k ≤ NQUBITS
  lv : VLv env s V.k e
  unit : n2 V.k (fun i => toC (V.f i)) = 1
  err : n2 V.k (fun i => vd s V.k e i - toC (V.f i)) ≤ kap W V.k * c

variable (env) in
/-- A matrix handle and the operator it stands for. -/
structure MNear (s : St W) (M : Mat ℝ) (x : MCost) (e : Edge W) : Prop where
  one : 1 ≤ x.err
  pos : 1 ≤ x.rows
  rows : x.rows ≤ 4 * x.err
  le : M.k ≤ NQUBITS
  ok : MOk env s M.k e x.rows
  wt : ‖val e.w‖ ≤ 1001 / 1000
  iso : Props.Isometry M.k M.F
  err : ∀ i < 2 ^ M.k, bsum M.k (fun j => ‖md s M.k e i j - toC (M.F i j)‖) ≤ D W M.k * x.err

variable (env) in
/-- The caller's handles. -/
structure NearD (s : St W) (d : Data R W) (h : Heap ℝ) (q : Cost) : Prop where
  vs : F3 (VNear env s) h.vs q.vs d.vs
  ms : F3 (MNear env s) h.ms q.ms d.ms

theorem kap_nn (k : Nat) : 0 ≤ kap W k := by
  have := eps_nn (W := W)
  unfold kap; positivity

theorem VNear.ext {s s' : St W} (hi : NInv env s) (he : Grow env s s') {V c e} (h : VNear env s V c e) : VNear env s' V c e :=
  ⟨h.pos, h.le, h.lv.ext he, h.unit, by
    rw [n2_congr (g := fun i => vd s V.k e i - toC (V.f i)) fun i _ => by rw [vd_ext hi.base he h.lv]]; exact h.err⟩

theorem MNear.ext {s s' : St W} (hi : NInv env s) (he : Grow env s s') {M a e} (h : MNear env s M a e) : MNear env s' M a e :=
  ⟨h.one, h.pos, h.rows, h.le, h.ok.ext he, h.wt, h.iso, fun i hi' => by
    rw [bsum_congr (g := fun j => ‖md s M.k e i j - toC (M.F i j)‖) fun j _ => by rw [md_ext hi.base he h.ok.lv.reg]]
    exact h.err i hi'⟩

theorem NearD.ext {s s' : St W} (hi : NInv env s) (he : Grow env s s') {d : Data R W} {h q} (hd : NearD env s d h q) :
    NearD env s' d h q := ⟨hd.vs.imp fun _ _ _ h => h.ext hi he, hd.ms.imp fun _ _ _ h => h.ext hi he⟩

theorem lowEq_mod' (k i : Nat) : LowEq k i (i % 2 ^ k) := fun b hb => by simp [hb]

/-- The weight of a handle within its budget. -/
theorem VNear.wt {s : St W} (hi : NInv env s) {V c e} (h : VNear env s V c e) (hb : kap W V.k * c ≤ 1) : ‖val e.w‖ ≤ 2 := by
  refine weight_le hi h.lv fun i => ?_
  have hlt : i % 2 ^ V.k < 2 ^ V.k := Nat.mod_lt _ (Nat.two_pow_pos _)
  rw [vd_congr s V.k e (lowEq_mod' V.k i)]
  refine (le_n2 (f := fun i => vd s V.k e i) hlt).trans ?_
  have h1 := n2_le_add V.k (fun i => vd s V.k e i) (fun i => toC (V.f i))
  rw [h.unit] at h1
  linarith [h.err]

/-- A handle within its budget is not the zero vector. -/
theorem VNear.live {s : St W} {V c e} (h : VNear env s V c e) (hb : kap W V.k * c < 1) : e.n ≠ none := by
  intro hn
  rcases h.lv with h1 | ⟨h1, _⟩
  · rcases h1 with ⟨h1, _⟩ | ⟨p, nd, hp, _⟩
    · have := h.pos; omega
    · rw [hn] at hp; cases hp
  · have h2 : n2 V.k (fun i => vd s V.k e i - toC (V.f i)) = 1 := by
      rw [← h.unit]
      unfold n2
      congr 1
      refine Finset.sum_congr rfl fun i _ => ?_
      dsimp only
      rw [vd_z _ _ _ h1, zero_sub, norm_neg]
    linarith [h.err]

/-! ## New handles -/

theorem apx_near {s : St W} {V : Vec ℝ} {e : Edge W} (h0 : 0 < V.k) (hq : V.k ≤ NQUBITS) {F : Nat → ℂ}
    (h : VApx env s V.k e F (9 * V.k * ε)) (hF : ∀ i < 2 ^ V.k, F i = toC (V.f i))
    (hu : n2 V.k (fun i => toC (V.f i)) = 1) : VNear env s V 1 e := by
  have e0 := eps_nn (W := W)
  refine ⟨h0, hq, h.1, hu, ?_⟩
  refine (n2_le (β := 9 * V.k * ε) (by positivity) fun i hi => ?_).trans ?_
  · rw [← hF i hi]; exact h.2 i
  · unfold kap
    rw [Nat.cast_one, _root_.mul_one]
    refine mul_le_mul_of_nonneg_left ?_ (Real.sqrt_nonneg _)
    have : (0 : ℝ) ≤ V.k := Nat.cast_nonneg _
    nlinarith [mul_nonneg e0 this, mul_nonneg e0 (mul_nonneg this this)]

theorem basis_unit {k x : Nat} (hx : x < 2 ^ k) : n2 k (fun i => toC ((Spec.basis k x : Vec ℝ).f i)) = 1 := by
  unfold n2
  rw [Finset.sum_eq_single x]
  · simp [Spec.basis]
  · intro b _ hb; simp [Spec.basis, hb]
  · intro h; exact (h (mem_range.2 hx)).elim

theorem D_unit (k : Nat) : 100 * ε ≤ D W k ∧ 100 * ε * (k + 1) ≤ D W k := by
  have e0 := eps_nn (W := W)
  have hk : (0 : ℝ) ≤ k := Nat.cast_nonneg _
  unfold D
  constructor <;> nlinarith [mul_nonneg e0 hk, mul_nonneg e0 (mul_nonneg hk hk)]

theorem mapx_near {s : St W} {M : Mat ℝ} {N : Nat} {e : Edge W} (hq : M.k ≤ NQUBITS) {F : Nat → Nat → ℂ} (h1 : 1 ≤ N) (hN : N ≤ 4)
    (h : MApx env s M.k e N F) (hF : ∀ i < 2 ^ M.k, ∀ j < 2 ^ M.k, F i j = toC (M.F i j)) (hiso : Props.Isometry M.k M.F) :
    MNear env s M ⟨N, 1⟩ e := by
  have e0 := eps_nn (W := W)
  refine ⟨le_rfl, h1, by omega, hq, h.ok, h.wt.trans (wt_le hq), hiso, fun i hi => ?_⟩
  have := h.err i id fun j _ b _ => rfl
  rw [bsum_congr (g := fun j => ‖md s M.k e i (id j) - F i (id j)‖) fun j hj => by rw [← hF i hi j hj]; rfl]
  refine this.trans ?_
  have hN' : (N : ℝ) ≤ 4 := by exact_mod_cast hN
  have hk : (0 : ℝ) ≤ M.k + 1 := by positivity
  have := (D_unit (W := W) M.k).2
  push_cast
  nlinarith [mul_nonneg e0 hk]

/-- One matrix-vector product. -/
theorem mv_near {s s' : St W} (hs : NInv env s) (hs' : NInv env s') {M : Mat ℝ} {V : Vec ℝ} {x : MCost} {c : Nat} {l r e : Edge W}
    (hM : MNear env s M x l) (hV : VNear env s V c r) (hk : M.k = V.k) (hb : kap W V.k * c ≤ 1)
    (h : VApx env s' V.k e (prodF s V.k l r) (1001 / 1000 * 2 * x.rows * D W V.k + 16 * x.rows * ε)) :
    VNear env s' (M.apply V) (c + x.err) e := by
  obtain ⟨N, a⟩ := x
  obtain ⟨k, U⟩ := M
  obtain ⟨k', f⟩ := V
  dsimp only at hk
  subst hk
  have e0 := eps_nn (W := W)
  have hkq : k ≤ NQUBITS := hV.le
  have hiso : Props.Isometry k U := hM.iso
  have happ : ∀ i < 2 ^ k, toC (((⟨k, U⟩ : Mat ℝ).apply ⟨k, f⟩).f i) = ∑ j ∈ range (2 ^ k), toC (U i j) * toC (f j) := by
    intro i hi
    show toC (∑ j ∈ range (2 ^ k), (⟨k, U⟩ : Mat ℝ).at k i j * f j) = _
    rw [toC_sum]
    refine Finset.sum_congr rfl fun j hj => ?_
    rw [Props.at_self (⟨k, U⟩ : Mat ℝ) hi (mem_range.1 hj), toC_mul]
  have hw := hV.wt hs hb
  refine ⟨hV.pos, hkq, h.1, ?_, ?_⟩
  · show n2 k _ = 1
    rw [n2_congr happ, iso_n2 hiso fun j => toC (f j)]
    exact hV.unit
  · show n2 k (fun i => vd s' k e i - toC (((⟨k, U⟩ : Mat ℝ).apply ⟨k, f⟩).f i)) ≤ kap W k * ((c + a : Nat) : ℝ)
    have hverr : n2 k (fun i => vd s k r i - toC (f i)) ≤ kap W k * c := hV.err
    have ha : (1 : ℝ) ≤ a := by exact_mod_cast hM.one
    have hNa : (N : ℝ) ≤ 4 * a := by exact_mod_cast hM.rows
    have hN0 : (0 : ℝ) ≤ N := Nat.cast_nonneg N
    have hkk : (0 : ℝ) ≤ k := Nat.cast_nonneg k
    have split : ∀ i < 2 ^ k, vd s' k e i - toC (((⟨k, U⟩ : Mat ℝ).apply ⟨k, f⟩).f i) =
        (vd s' k e i - ∑ j ∈ range (2 ^ k), toC (U i j) * vd s k r j) +
        ∑ j ∈ range (2 ^ k), toC (U i j) * (vd s k r j - toC (f j)) := by
      intro i hi
      rw [happ i hi, Finset.sum_congr rfl fun j _ => mul_sub (toC (U i j)) (vd s k r j) (toC (f j)), Finset.sum_sub_distrib]
      ring
    rw [n2_congr split]
    refine (n2_add k _ _).trans ?_
    rw [iso_n2 hiso fun j => vd s k r j - toC (f j)]
    have hβ : n2 k (fun i => vd s' k e i - ∑ j ∈ range (2 ^ k), toC (U i j) * vd s k r j) ≤ kap W k * a := by
      refine (n2_le (β := (1001 / 1000 * 2 * N * D W k + 16 * N * ε) + D W k * a * (1001 / 1000 * 2)) ?_
        fun i hi => ?_).trans ?_
      · have := D_nn (W := W) k
        positivity
      · have h1 := h.2 i
        have h2 : ‖prodF s k l r i - ∑ j ∈ range (2 ^ k), toC (U i j) * vd s k r j‖ ≤
            D W k * a * (1001 / 1000 * 2) := by
          unfold prodF
          rw [bsum_eq, ← Finset.sum_sub_distrib]
          refine (norm_sum_le _ _).trans ?_
          have h3 := hM.err i hi
          have h3 : bsum k (fun j => ‖md s k l i j - toC (U i j)‖) ≤ D W k * a := h3
          rw [bsum_eq] at h3
          calc _ ≤ ∑ j ∈ range (2 ^ k), ‖md s k l i j - toC (U i j)‖ * (1001 / 1000 * 2) := by
                refine Finset.sum_le_sum fun j _ => ?_
                rw [← sub_mul, norm_mul]
                refine mul_le_mul_of_nonneg_left ?_ (norm_nonneg _)
                have h4 : ‖vd s k r j‖ ≤ 1001 / 1000 * ‖val r.w‖ := vd_le hs hkq hV.lv j
                linarith
            _ = (∑ j ∈ range (2 ^ k), ‖md s k l i j - toC (U i j)‖) * (1001 / 1000 * 2) := by rw [Finset.sum_mul]
            _ ≤ _ := mul_le_mul_of_nonneg_right h3 (by norm_num)
        exact (norm_sub_le_norm_sub_add_norm_sub _ _ _).trans (add_le_add h1 h2)
      · have hk11 : kap W k * a = √(2 ^ k) * (11 * D W k * a) := by unfold kap D; ring
        rw [hk11]
        refine mul_le_mul_of_nonneg_left ?_ (Real.sqrt_nonneg _)
        have hD := D_nn (W := W) k
        have h5 : (N : ℝ) * D W k ≤ 4 * a * D W k := mul_le_mul_of_nonneg_right hNa hD
        have h6 : (N : ℝ) * (100 * ε) ≤ 4 * a * D W k := mul_le_mul hNa (D_unit k).1 (by positivity) (by positivity)
        have h7 : 0 ≤ a * D W k := by positivity
        linarith
    push_cast
    rw [mul_add]
    linarith

/-- The product of two isometries. -/
theorem iso_mul {k : Nat} {U V : Nat → Nat → C ℝ} (hU : Props.Isometry k U) (hV : Props.Isometry k V) :
    Props.Isometry k (fun i j => ∑ m ∈ range (2 ^ k), U i m * V m j) := by
  intro a ha b hb
  rw [← hV a ha b hb]
  calc ∑ i ∈ range (2 ^ k), Props.conj (∑ m ∈ range (2 ^ k), U i m * V m a) * ∑ m ∈ range (2 ^ k), U i m * V m b
      = ∑ i ∈ range (2 ^ k), ∑ m ∈ range (2 ^ k), ∑ m' ∈ range (2 ^ k), (Props.conj (V m a) * V m' b) * (Props.conj (U i m) * U i m') := by
        refine Finset.sum_congr rfl fun i _ => ?_
        rw [Props.conj_sum, Finset.sum_mul_sum]
        refine Finset.sum_congr rfl fun m _ => Finset.sum_congr rfl fun m' _ => ?_
        rw [Props.conj_mul]
        ring
    _ = ∑ m ∈ range (2 ^ k), ∑ m' ∈ range (2 ^ k), (Props.conj (V m a) * V m' b) * ∑ i ∈ range (2 ^ k), Props.conj (U i m) * U i m' := by
        rw [Finset.sum_comm]
        refine Finset.sum_congr rfl fun m _ => ?_
        rw [Finset.sum_comm]
        exact Finset.sum_congr rfl fun m' _ => by rw [Finset.mul_sum]
    _ = ∑ m ∈ range (2 ^ k), Props.conj (V m a) * V m b := by
        refine Finset.sum_congr rfl fun m hm => ?_
        rw [Finset.sum_eq_single m]
        · rw [hU m (mem_range.1 hm) m (mem_range.1 hm), if_pos rfl, _root_.mul_one]
        · intro m' hm' hne
          rw [hU m (mem_range.1 hm) m' (mem_range.1 hm'), if_neg (Ne.symm hne), MulZeroClass.mul_zero]
        · intro h; exact (h hm).elim

/-- A product of matrices. -/
theorem prod_near {s : St W} (hs : NInv env s) {k : Nat} {U V : Nat → Nat → C ℝ} {M : Mat ℝ} {x y : MCost} {l r e : Edge W}
    (hMk : M.k = k) (hMF : ∀ i < 2 ^ k, ∀ j < 2 ^ k, M.F i j = ∑ m ∈ range (2 ^ k), U i m * V m j)
    (hA : MNear env s ⟨k, U⟩ x l) (hB : MNear env s ⟨k, V⟩ y r) (hb : D W k * (x.mul y).err ≤ 1 / 1000)
    (h : MulEdge env s k l r e) : MNear env s M (x.mul y) e := by
  obtain ⟨k', F⟩ := M
  dsimp only at hMk
  subst hMk
  obtain ⟨N, a⟩ := x
  obtain ⟨N', b⟩ := y
  have e0 := eps_nn (W := W)
  have hD := D_nn (W := W) k'
  have hN : (1 : ℝ) ≤ N := by exact_mod_cast hA.pos
  have hN' : (1 : ℝ) ≤ N' := by exact_mod_cast hB.pos
  have ha : (1 : ℝ) ≤ a := by exact_mod_cast hA.one
  have hb1 : (1 : ℝ) ≤ b := by exact_mod_cast hB.one
  have hAok : MOk env s k' l N := hA.ok
  have hBok : MOk env s k' r N' := hB.ok
  have hAe : ∀ i < 2 ^ k', bsum k' (fun j => ‖md s k' l i j - toC (U i j)‖) ≤ D W k' * a := hA.err
  have hBe : ∀ i < 2 ^ k', bsum k' (fun j => ‖md s k' r i j - toC (V i j)‖) ≤ D W k' * b := hB.err
  have hle : k' ≤ NQUBITS := hA.le
  have hcast : (((⟨N, a⟩ : MCost).mul ⟨N', b⟩).err : ℝ) = 3 * N ^ 2 * N' + 2 * N' * a + 2 * N * b := by
    simp only [MCost.mul]; push_cast; ring
  have rows : ∀ {f : Edge W} {n : Nat}, MOk env s k' f n → ‖val f.w‖ ≤ 1001 / 1000 → ∀ i,
      bsum k' (fun j => ‖md s k' f i j‖) ≤ 101 / 100 * n := by
    intro f n hf hw i
    have h0 : (0 : ℝ) ≤ n := Nat.cast_nonneg n
    have h1 : bsum k' (fun j => ‖md s k' f i j‖) = ‖val f.w‖ * rowS s k' f.n i := by
      unfold rowS
      rw [← bsum_mul]
      exact bsum_congr fun j _ => by unfold md; rw [norm_mul]
    rw [h1]
    rcases hf with hf | hf
    · rw [val_z hf.1, norm_zero, MulZeroClass.zero_mul]; positivity
    · have h2 := mul_le_mul hw (rowS_le' hs hle hf i) (rowS_nonneg _ _ _ _) (by norm_num)
      linarith
  have hterm : D W k' * a ≤ 1 / 1000 := by
    refine le_trans ?_ hb
    refine mul_le_mul_of_nonneg_left ?_ hD
    rw [hcast]
    nlinarith [mul_nonneg (by linarith : (0 : ℝ) ≤ N' - 1) (by linarith : (0 : ℝ) ≤ a), mul_nonneg (sq_nonneg (N : ℝ)) (by linarith : (0 : ℝ) ≤ N'),
      mul_nonneg (by linarith : (0 : ℝ) ≤ N) (by linarith : (0 : ℝ) ≤ b)]
  -- the rows of the product
  have herr : ∀ i < 2 ^ k', bsum k' (fun j => ‖md s k' e i j - toC (F i j)‖) ≤ D W k' * ((⟨N, a⟩ : MCost).mul ⟨N', b⟩).err := by
    intro i hi
    have p1 := h.row hAok hBok hA.wt hB.wt (by norm_num) (by norm_num) i
    -- exact row sums
    have hU : bsum k' (fun c => ‖toC (U i c)‖) ≤ 102 / 100 * N := by
      have q1 : bsum k' (fun c => ‖toC (U i c)‖) ≤ bsum k' (fun c => ‖md s k' l i c - toC (U i c)‖) + bsum k' (fun c => ‖md s k' l i c‖) := by
        rw [← bsum_add]
        refine bsum_le _ fun c _ => ?_
        have := norm_sub_le (md s k' l i c) (md s k' l i c - toC (U i c))
        rw [sub_sub_cancel] at this
        linarith
      have := hAe i hi
      have := rows hAok hA.wt i
      linarith
    have p2 : bsum k' (fun j => ‖mmF s k' l r i j - toC (F i j)‖) ≤ D W k' * a * (101 / 100 * N') + 102 / 100 * N * (D W k' * b) := by
      have q1 : ∀ j < 2 ^ k', ‖mmF s k' l r i j - toC (F i j)‖ ≤
          ∑ c ∈ range (2 ^ k'), (‖md s k' l i c - toC (U i c)‖ * ‖md s k' r c j‖ + ‖toC (U i c)‖ * ‖md s k' r c j - toC (V c j)‖) := by
        intro j hj
        rw [show F i j = _ from hMF i hi j hj, toC_sum]
        unfold mmF
        rw [bsum_eq, ← Finset.sum_sub_distrib]
        refine (norm_sum_le _ _).trans (Finset.sum_le_sum fun c _ => ?_)
        rw [toC_mul]
        have : md s k' l i c * md s k' r c j - toC (U i c) * toC (V c j) =
            (md s k' l i c - toC (U i c)) * md s k' r c j + toC (U i c) * (md s k' r c j - toC (V c j)) := by ring
        rw [this]
        refine (norm_add_le _ _).trans (le_of_eq ?_)
        rw [norm_mul, norm_mul]
      refine (bsum_le k' q1).trans ?_
      rw [bsum_eq, Finset.sum_comm]
      have q2 : ∀ c ∈ range (2 ^ k'), ∑ j ∈ range (2 ^ k'), (‖md s k' l i c - toC (U i c)‖ * ‖md s k' r c j‖ + ‖toC (U i c)‖ * ‖md s k' r c j - toC (V c j)‖) ≤
          ‖md s k' l i c - toC (U i c)‖ * (101 / 100 * N') + ‖toC (U i c)‖ * (D W k' * b) := by
        intro c hc
        rw [Finset.sum_add_distrib, ← Finset.mul_sum, ← Finset.mul_sum, ← bsum_eq, ← bsum_eq]
        exact add_le_add (mul_le_mul_of_nonneg_left (rows hBok hB.wt c) (norm_nonneg _))
          (mul_le_mul_of_nonneg_left (hBe c (mem_range.1 hc)) (norm_nonneg _))
      refine (Finset.sum_le_sum q2).trans ?_
      rw [Finset.sum_add_distrib, ← Finset.sum_mul, ← Finset.sum_mul, ← bsum_eq, ← bsum_eq]
      exact add_le_add (mul_le_mul_of_nonneg_right (hAe i hi) (by positivity)) (mul_le_mul_of_nonneg_right hU (by positivity))
    have p3 : bsum k' (fun j => ‖md s k' e i j - toC (F i j)‖) ≤
        bsum k' (fun j => ‖md s k' e i j - mmF s k' l r i j‖) + bsum k' (fun j => ‖mmF s k' l r i j - toC (F i j)‖) := by
      rw [← bsum_add]
      exact bsum_le _ fun j _ => norm_sub_le_norm_sub_add_norm_sub _ _ _
    rw [hcast]
    have h20 : 20 * ε ≤ D W k' / 5 := by have := (D_unit (W := W) k').1; linarith
    have z1 : (1001 / 1000 * (1001 / 1000) * N * D W k' + 20 * N * ε : ℝ) ≤ 3 / 2 * (N * D W k') := by
      have : (20 * ε) * N ≤ (D W k' / 5) * N := mul_le_mul_of_nonneg_right h20 (by linarith)
      have : 0 ≤ N * D W k' := by positivity
      linarith
    have z2 := mul_le_mul_of_nonneg_left z1 (by positivity : (0 : ℝ) ≤ 2 * (N * N'))
    have z3 : 0 ≤ D W k' * a * N' := by positivity
    have z4 : 0 ≤ D W k' * b * N := by positivity
    nlinarith
  have hrN : ((⟨N, a⟩ : MCost).mul ⟨N', b⟩).rows = N * N' := rfl
  have heN : ((⟨N, a⟩ : MCost).mul ⟨N', b⟩).err = 3 * N ^ 2 * N' + 2 * N' * a + 2 * N * b := rfl
  have pN : 1 ≤ N := hA.pos
  have pN' : 1 ≤ N' := hB.pos
  have hok := (h N N' _ _ hAok hBok hA.wt hB.wt (by norm_num) (by norm_num)).2
  have hsq : N * N' ≤ N ^ 2 * N' := Nat.mul_le_mul_right _ (by rw [sq]; exact Nat.le_mul_of_pos_left _ pN)
  have hNN : 1 ≤ N * N' := Nat.mul_pos pN pN'
  have hiso : Props.Isometry k' F := iso_congr hMF (iso_mul hA.iso hB.iso)
  refine ⟨?_, ?_, ?_, hle, hok, ?_, hiso, herr⟩
  · rw [heN, Nat.mul_assoc 3]; omega
  · rw [hrN]; exact hNN
  · rw [hrN, heN, Nat.mul_assoc 3]; omega
  · refine mweight_le hs hok.lv fun i j => ?_
    have hi : i % 2 ^ k' < 2 ^ k' := Nat.mod_lt _ (Nat.two_pow_pos _)
    have hj : j % 2 ^ k' < 2 ^ k' := Nat.mod_lt _ (Nat.two_pow_pos _)
    rw [md_congr s k' e (lowEq_mod' k' i) (lowEq_mod' k' j)]
    have q1 := herr _ hi
    have q2 : ‖md s k' e (i % 2 ^ k') (j % 2 ^ k') - toC (F (i % 2 ^ k') (j % 2 ^ k'))‖ ≤
        bsum k' (fun j => ‖md s k' e (i % 2 ^ k') j - toC (F (i % 2 ^ k') j)‖) := by
      rw [bsum_eq]
      exact Finset.single_le_sum (f := fun j => ‖md s k' e (i % 2 ^ k') j - toC (F (i % 2 ^ k') j)‖)
        (fun _ _ => norm_nonneg _) (mem_range.2 hj)
    have q3 := iso_entry hiso hi hj
    have q4 := norm_add_le (md s k' e (i % 2 ^ k') (j % 2 ^ k') - toC (F (i % 2 ^ k') (j % 2 ^ k'))) (toC (F (i % 2 ^ k') (j % 2 ^ k')))
    rw [sub_add_cancel] at q4
    linarith

/-! ## One call -/

theorem newV_num {s : St W} (hs : NInv env s) {d : Data R W} {h : Heap ℝ} {q : Cost} {p : QDD.P W (Edge W)} {V : Vec ℝ} {c : Nat}
    (hg : NearD env s d h q) (hp : Sat (nworld env) p s (fun s' e => VNear env s' V c e)) :
    Sat (nworld env) (do return (d.addV (← p), (.unit : Out R W))) s
      (fun s' r => NearD env s' r.1 (h.addV V) { q with vs := q.vs ++ [c] } ∧ r.1.memo = d.memo) := by
  refine Sat.bind hp fun s1 e hi1 he1 h1 => ?_
  exact Sat.pure fun s2 hi2 he2 => ⟨NearD.ext hi1 he2 ⟨(hg.ext hs he1).vs.snoc h1, (hg.ext hs he1).ms⟩, rfl⟩

theorem newM_num {s : St W} (hs : NInv env s) {d : Data R W} {h : Heap ℝ} {q : Cost} {p : QDD.P W (Edge W)} {M : Mat ℝ} {a : MCost}
    (hg : NearD env s d h q) (hp : Sat (nworld env) p s (fun s' e => MNear env s' M a e)) :
    Sat (nworld env) (do return (d.addM (← p), (.unit : Out R W))) s
      (fun s' r => NearD env s' r.1 (h.addM M) { q with ms := q.ms ++ [a] } ∧ r.1.memo = d.memo) := by
  refine Sat.bind hp fun s1 e hi1 he1 h1 => ?_
  exact Sat.pure fun s2 hi2 he2 => ⟨NearD.ext hi1 he2 ⟨(hg.ext hs he1).vs, (hg.ext hs he1).ms.snoc h1⟩, rfl⟩

theorem ctl_pairwise {cs : List Ctrl} (h : cs.Pairwise (fun a b => a.qubit < b.qubit)) :
    (Api.ctl cs).Pairwise (fun a b => a.qubit < b.qubit) := by
  unfold Api.ctl; rw [List.pairwise_map]; exact h

theorem gate_near {s : St W} (hs : NInv env s) {n t : Nat} {cs : List Ctrl} {g : Nat → Nat → W} {u : Nat → Nat → C ℝ} {M : Mat ℝ}
    (ht : t < n) (hn : n ≤ NQUBITS) (hord : cs.Pairwise (fun a b => a.qubit < b.qubit)) (hcs : ∀ c ∈ cs, c.qubit ≠ t)
    (hu : Props.Isometry 1 u) (hg : ∀ r < 2, ∀ c < 2, ‖val (g r c) - toC (u r c)‖ ≤ ε) (hk : M.k = n)
    (hM : ∀ i < 2 ^ n, ∀ j < 2 ^ n, M.F i j = Spec.gate1 n u t cs i j) :
    Sat (nworld env) (makeGate env n g t (Api.ctl cs)) s (fun s' e => MNear env s' M ⟨2, 1⟩ e) := by
  subst hk
  refine Sat.mono (makeGate_num hs ht hn (ctl_pairwise hord) (by simpa [Api.ctl] using hcs) (u := fun r c => toC (u r c))
    fun r c hr hc => ⟨hg r hr c hc, iso_entry hu (by simpa using hr) (by simpa using hc)⟩) fun s' e _ _ h => ?_
  refine mapx_near hn (by decide) (by decide) h (fun i hi j hj => ?_) (iso_congr hM (iso1 ht hcs hu))
  rw [hM i hi j hj, toC_gate1]

theorem gate2_near {s : St W} (hs : NInv env s) {n t0 t1 : Nat} {cs : List Ctrl} {g : Nat → Nat → W} {u : Nat → Nat → C ℝ} {M : Mat ℝ}
    (h0 : t0 < n) (h1 : t1 < n) (hne : t0 ≠ t1) (hn : n ≤ NQUBITS) (hord : cs.Pairwise (fun a b => a.qubit < b.qubit))
    (hcs : ∀ c ∈ cs, c.qubit ≠ t0 ∧ c.qubit ≠ t1)
    (hu : Props.Isometry 2 u) (hg : ∀ r < 4, ∀ c < 4, ‖val (g r c) - toC (u r c)‖ ≤ ε) (hk : M.k = n)
    (hM : ∀ i < 2 ^ n, ∀ j < 2 ^ n, M.F i j = Spec.gate2 n u t0 t1 cs i j) :
    Sat (nworld env) (makeTwoQubitGate env n g t0 t1 (Api.ctl cs)) s (fun s' e => MNear env s' M ⟨4, 1⟩ e) := by
  subst hk
  refine Sat.mono (makeTwoQubitGate_num hs h0 h1 hne hn (ctl_pairwise hord) (by simpa [Api.ctl] using hcs)
    (g := fun r c => toC (u r c)) fun r c hr hc => ⟨hg r hr c hc, iso_entry hu (by simpa using hr) (by simpa using hc)⟩)
    fun s' e _ _ h => ?_
  refine mapx_near hn (by decide) le_rfl h (fun i hi j hj => ?_) (iso_congr hM (iso2 h0 h1 hne hcs hu))
  rw [hM i hi j hj, toC_gate2]

theorem xmat_val (r c : Nat) : ‖val (xmat r c : W) - toC (xmat r c : C ℝ)‖ ≤ ε := by
  unfold xmat
  split
  · rw [val_zero, ExactW.zero_eq, toC_zero, sub_zero, norm_zero]; exact eps_nn
  · rw [val_one, ExactW.one_eq, toC_one, sub_self, norm_zero]; exact eps_nn

theorem swapMat_val (r c : Nat) : ‖val (swapMat r c : W) - toC (swapMat r c : C ℝ)‖ ≤ ε := by
  unfold swapMat
  split
  · rw [val_one, ExactW.one_eq, toC_one, sub_self, norm_zero]; exact eps_nn
  · rw [val_zero, ExactW.zero_eq, toC_zero, sub_zero, norm_zero]; exact eps_nn

/-- The `probs` map was cleared, or it is as before and so are the nodes it refers to. -/
def Kept (env : Env W) (s : St W) (d : Data R W) (s' : St W) (d' : Data R W) : Prop :=
  d'.memo = (fun _ => none) ∨ (d'.memo = d.memo ∧ (Grow env s s' ∨ s'.vt = s.vt))

/-- What is claimed of a call that returned. -/
def Done (env : Env W) (h : Heap ℝ) (q : Cost) (s : St W) (d : Data R W) (c : Safe.Call R W) (h' : Heap ℝ) (s' : St W)
    (r : Data R W × Out R W) : Prop :=
  NearD env s' r.1 h' (q.after c) ∧
    (∀ v V, c = .getVector v → h.vs[v]? = some V → Reads r.2 V (kap W V.k * (q.vs.getD v 0 + 1))) ∧ Kept env s d s' r.1

theorem plain_num (mt : Bool) (fk : Nat → Bool) {s : St W} {d : Data R W} {h : Heap ℝ} {q : Cost} (hs : NInv env s)
    (hg : NearD env s d h q) {c : Safe.Call R W} {c' : Cmd ℝ} (hr : Rounded c c') (hc : c.plain = true)
    (hp : Spec.pre NQUBITS h c') (hb : Budget h q c) {h' o'} (hst : Spec.step Real.sqrt h c' = some (h', o')) :
    Sat (nworld env) (prog env mt fk d c) s (Done env h q s d c h') := by
  have drop : ∀ {p : QDD.P W (Data R W × Out R W)}, (∀ v, c ≠ .getVector v) →
      Sat (nworld env) p s (fun s' r => NearD env s' r.1 h' (q.after c) ∧ r.1.memo = d.memo) →
      Sat (nworld env) p s (Done env h q s d c h') :=
    fun hv hsat => Sat.mono hsat fun s' r _ he hn => ⟨hn.1, fun v V e => absurd e (hv v), .inr ⟨hn.2, .inl he⟩⟩
  cases hr with
  | zero n =>
    cases hst
    refine drop (by intro v; simp) (newV_num hs hg (Sat.mono (makeZeroState_num hs hp.1 hp.2) fun s' e _ _ hx => ?_))
    refine apx_near (V := Spec.basis n 0) hp.1 hp.2 hx (fun i hi => ?_) (basis_unit (Nat.two_pow_pos n))
    unfold basisF Spec.basis
    rw [if_congr (Api.all_false_iff (k := n) hi) rfl rfl]
    dsimp only
    split <;> simp
  | one n =>
    cases hst
    have hlt : 2 ^ n - 1 < 2 ^ n := by have := Nat.two_pow_pos n; omega
    refine drop (by intro v; simp) (newV_num hs hg (Sat.mono (makeOneState_num hs hp.1 hp.2) fun s' e _ _ hx => ?_))
    refine apx_near (V := Spec.basis n (2 ^ n - 1)) hp.1 hp.2 hx (fun i hi => ?_) (basis_unit hlt)
    unfold basisF Spec.basis
    rw [if_congr (Api.all_true_iff (k := n) hi) rfl rfl]
    dsimp only
    split <;> simp
  | @gate n t cs g u hu hge =>
    cases hst
    obtain ⟨h1, h2, h3, h4⟩ := hp
    exact drop (by intro v; simp) (newM_num hs hg (gate_near hs h1 h2 h3 h4 hu hge rfl fun i _ j _ => rfl))
  | @gate2 n t0 t1 cs g u hu hge =>
    cases hst
    obtain ⟨h1, h2, h3, h4, h5, h6⟩ := hp
    exact drop (by intro v; simp) (newM_num hs hg (gate2_near hs h1 h2 h3 h4 h5 h6 hu hge rfl fun i _ j _ => rfl))
  | cx n t c =>
    cases hst
    obtain ⟨h1, h2, h3, h4⟩ := hp
    refine drop (by intro v; simp) (newM_num hs hg (gate_near hs (cs := [⟨c, false⟩]) (u := xmat) h1 h4 (by simp)
      (by simpa using Ne.symm h3) xmat_iso (fun r _ c _ => xmat_val r c) rfl fun i hi j hj => cx_gate h1 h2 h3 hi hj))
  | cswap n t0 t1 c =>
    cases hst
    obtain ⟨h1, h2, h3, h4, h5, h6, h7⟩ := hp
    refine drop (by intro v; simp) (newM_num hs hg (gate2_near hs (cs := [⟨c, false⟩]) (u := swapMat) h1 h2 h4 h7 (by simp)
      (by simp [h5, h6]) swapMat_iso (fun r _ c _ => swapMat_val r c) rfl
      fun i hi j hj => cswap_gate h1 h2 h3 h4 h5 h6 hi hj))
  | mv m v =>
    obtain ⟨M, V, hm, hv, hk⟩ := hp
    simp only [Spec.step, hm, hv, Option.bind_eq_bind, Option.bind_some] at hst
    cases hst
    obtain ⟨hkk, hbud⟩ := hb M V hm hv
    obtain ⟨a, em, g1, g2, g3⟩ := hg.ms.get hm
    obtain ⟨cv, ev, g4, g5, g6⟩ := hg.vs.get hv
    rw [getD_of g4] at hbud
    refine drop (by intro v; simp) ?_
    simp only [prog, handle_bind g2, handle_bind g5, Cost.after, Cost.mat, getD_of' g1, getD_of g4]
    have hok : MOk env s V.k em a.rows := hkk ▸ g3.ok
    refine newV_num hs hg (Sat.mono (mvMul_num mt hs g6.le hok g6.lv g3.wt (g6.wt hs hbud) (by norm_num) le_rfl g3.pos)
      fun s' e hi' _ hx => ?_)
    exact mv_near hs hi' g3 g6 hkk hbud hx
  | getVector v =>
    obtain ⟨V, hv, hnz, hk⟩ := hp
    simp only [Spec.step, hv, Option.bind_eq_bind, Option.bind_some] at hst
    cases hst
    have hbud := hb V hv
    obtain ⟨cv, ev, g4, g5, g6⟩ := hg.vs.get hv
    rw [getD_of g4] at hbud
    simp only [prog, handle_bind g5]
    refine Sat.bind (Q := fun _ o => Reads o V (kap W V.k * (cv + 1))) (Sat.atom fun s1 _ hi1 he1 => ?_) fun s1 x hi1 he1 hx =>
      Sat.pure fun s' _ he => ⟨(hg.ext hs he1).ext hi1 he, fun v' V' e hv' => ?_, .inr ⟨rfl, .inl (he1.trans he)⟩⟩
    · have g7 := g6.ext hs he1
      obtain ⟨a, h5, h6, h7⟩ := getVector_num hi1 hk g7.lv (g7.live hbud) (g7.wt hi1 hbud.le)
      refine ⟨.vec a, s1, by dsimp only; rw [h5]; rfl, hi1, Grow.refl env s1, fun _ _ _ => ⟨a, rfl, h6, ?_⟩⟩
      haveI : Nonempty W := ⟨WOps.zero⟩
      choose! x hx using h7
      refine ⟨x, fun i hi => (hx i hi).1, ?_⟩
      have e0 := eps_nn (W := W)
      have h8 : n2 V.k (fun i => val (x i) - vd s1 V.k ev i) ≤ kap W V.k := by
        refine (n2_le (β := 5 * (V.k + 1) * ε) (by positivity) fun i hi => (hx i hi).2).trans ?_
        unfold kap
        refine mul_le_mul_of_nonneg_left ?_ (Real.sqrt_nonneg _)
        have : (0 : ℝ) ≤ V.k := Nat.cast_nonneg _
        nlinarith [mul_nonneg e0 this, mul_nonneg e0 (mul_nonneg this this)]
      have h9 := n2_tri V.k (fun i => val (x i)) (fun i => vd s1 V.k ev i) (fun i => toC (V.f i))
      have h10 := g7.err
      linarith
    · cases e
      rw [hv] at hv'
      cases hv'
      rw [getD_of g4]
      exact hx
  | gc force keep => cases hc
  | gcMat force keep => cases hc
  | swap n t0 t1 => cases hc
  | mmul a b => cases hc

theorem gc_near {s s' : St W} (hs : NInv env s) {V : Vec ℝ} {c : Nat} {e e' : Edge W} (h : VNear env s V c e)
    (hb : kap W V.k * c ≤ 1) (hr : e'.w = e.w ∧ ∀ k, k ≤ NQUBITS → VLv env s k e →
      VLv env s' k e' ∧ ∀ i, ‖vp s'.vt.mem k e'.n i - vp s.vt.mem k e.n i‖ ≤ 11 / 10 * k * ε) : VNear env s' V (c + 1) e' := by
  obtain ⟨hw, hr⟩ := hr
  obtain ⟨h1, h2⟩ := hr V.k h.le h.lv
  have e0 := eps_nn (W := W)
  have hwt := h.wt hs hb
  refine ⟨h.pos, h.le, h1, h.unit, ?_⟩
  have h8 : n2 V.k (fun i => vd s' V.k e' i - vd s V.k e i) ≤ kap W V.k := by
    refine (n2_le (β := 2 * (11 / 10 * V.k * ε)) (by positivity) fun i hi => ?_).trans ?_
    · unfold vd
      rw [hw, ← mul_sub, norm_mul]
      exact mul_le_mul hwt (h2 i) (norm_nonneg _) (by norm_num)
    · unfold kap
      refine mul_le_mul_of_nonneg_left ?_ (Real.sqrt_nonneg _)
      have : (0 : ℝ) ≤ V.k := Nat.cast_nonneg _
      nlinarith [mul_nonneg e0 this, mul_nonneg e0 (mul_nonneg this this)]
  have h9 := n2_tri V.k (fun i => vd s' V.k e' i) (fun i => vd s V.k e i) (fun i => toC (V.f i))
  have h10 := h.err
  push_cast
  linarith

theorem gcMat_near {s s' : St W} (hs : NInv env s) {M : Mat ℝ} {x : MCost} {e e' : Edge W} (h : MNear env s M x e)
    (hr : e'.w = e.w ∧ (e.n = none → e'.n = none) ∧ ∀ k N, k ≤ NQUBITS → Sup env s k e.n N →
      Sup env s' k e'.n N ∧ ∀ i, bsum k (fun j => ‖mp s'.mt.mem k e'.n i j - mp s.mt.mem k e.n i j‖) ≤ 11 / 10 * k * N * ε) :
    MNear env s' M x.collected e' := by
  obtain ⟨hw, hz, hr⟩ := hr
  have e0 := eps_nn (W := W)
  have hk : (0 : ℝ) ≤ M.k := Nat.cast_nonneg _
  have h1 := h.one
  have h3 := h.rows
  have hD := D_nn (W := W) M.k
  refine ⟨?_, h.pos, ?_, h.le, ?_, hw ▸ h.wt, h.iso, fun i hi => ?_⟩
  · unfold MCost.collected; dsimp only; omega
  · unfold MCost.collected; dsimp only; omega
  · rcases h.ok with h1 | h1
    · exact .inl ⟨hw ▸ h1.1, hz h1.2⟩
    · exact .inr (hr M.k x.rows h.le h1).1
  · have hq : (x.rows : ℝ) ≤ 4 * ((x.rows + 3) / 4 : Nat) := by
      have : x.rows ≤ 4 * ((x.rows + 3) / 4) := by omega
      exact_mod_cast this
    have hd : bsum M.k (fun j => ‖md s' M.k e' i j - md s M.k e i j‖) ≤ D W M.k * ((x.rows + 3) / 4 : Nat) := by
      rcases h.ok with h1 | h1
      · have h2 : val e.w = 0 := val_z h1.1
        unfold md
        simp only [hw, h2, MulZeroClass.zero_mul, sub_self, norm_zero]
        rw [show bsum M.k (fun _ : Nat => (0 : ℝ)) = 0 by rw [bsum_eq]; simp]
        positivity
      · have h2 := (hr M.k x.rows h.le h1).2 i
        have h3 : bsum M.k (fun j => ‖md s' M.k e' i j - md s M.k e i j‖) =
            ‖val e.w‖ * bsum M.k (fun j => ‖mp s'.mt.mem M.k e'.n i j - mp s.mt.mem M.k e.n i j‖) := by
          rw [← bsum_mul]
          refine bsum_congr fun j _ => ?_
          unfold md
          rw [hw, ← mul_sub, norm_mul]
        rw [h3]
        have h4 : ‖val e.w‖ * bsum M.k (fun j => ‖mp s'.mt.mem M.k e'.n i j - mp s.mt.mem M.k e.n i j‖) ≤
            1001 / 1000 * (11 / 10 * M.k * x.rows * ε) :=
          mul_le_mul h.wt h2 (bsum_nonneg _ fun j => norm_nonneg _) (by norm_num)
        refine h4.trans ?_
        have h5 := (D_unit (W := W) M.k).2
        have h6 : (M.k * ε) * x.rows ≤ (D W M.k / 100) * (4 * ((x.rows + 3) / 4 : Nat)) :=
          mul_le_mul (by nlinarith) hq (Nat.cast_nonneg _) (by positivity)
        have h7 : 0 ≤ D W M.k * ((x.rows + 3) / 4 : Nat) := by positivity
        nlinarith
    have h5 : bsum M.k (fun j => ‖md s' M.k e' i j - toC (M.F i j)‖) ≤
        bsum M.k (fun j => ‖md s' M.k e' i j - md s M.k e i j‖) + bsum M.k (fun j => ‖md s M.k e i j - toC (M.F i j)‖) := by
      rw [← bsum_add]
      exact bsum_le _ fun j _ => norm_sub_le_norm_sub_add_norm_sub _ _ _
    have h6 := h.err i hi
    have h7 : (x.collected.err : ℝ) = x.err + ((x.rows + 3) / 4 : Nat) := by unfold MCost.collected; push_cast; rfl
    rw [h7, mul_add]
    linarith

theorem VNear.vt {s s' : St W} (ht : s'.vt = s.vt) {V c e} (h : VNear env s V c e) : VNear env s' V c e :=
  ⟨h.pos, h.le, by unfold VLv VPtr; rw [ht]; exact h.lv, h.unit, by unfold vd; rw [ht]; exact h.err⟩

theorem sup_mt {s s' : St W} (ht : s'.mt = s.mt) : ∀ {k n N}, Sup env s k n N → Sup env s' k n N
  | 0, _, _, h => h
  | k + 1, n, N, h => by
    rcases h with ⟨h1, h2⟩ | ⟨p, nd, h1, h2, h3, h0, M, h4, h5⟩
    · exact .inl ⟨by unfold MLv; rw [ht]; exact h1, sup_mt ht h2⟩
    · exact .inr ⟨p, nd, h1, by rw [ht]; exact h2, h3, h0, M, fun r c => (h4 r c).imp id (sup_mt ht), h5⟩

theorem MNear.mt {s s' : St W} (ht : s'.mt = s.mt) {M a e} (h : MNear env s M a e) : MNear env s' M a e :=
  ⟨h.one, h.pos, h.rows, h.le, h.ok.imp id (sup_mt ht), h.wt, h.iso, by unfold md; rw [ht]; exact h.err⟩

/-- Every call that may fork, in every schedule: no error, it can always run to completion, and on return the handles are accurate. -/
theorem call_num (mt : Bool) (fk : Nat → Bool) {σ : Safe.Sys R W} {h : Heap ℝ} {q : Cost} (hs : NInv env σ.st)
    (hg : NearD env σ.st σ.d h q) {c : Safe.Call R W} {c' : Cmd ℝ} (hr : Rounded c c')
    (hc : c.seq = false) (hp : Spec.pre NQUBITS h c') (hb : Budget h q c) {h' o'}
    (hst : Spec.step Real.sqrt h c' = some (h', o')) :
    Api.Total (prog env mt fk σ.d c) σ.st (fun s' r => NInv env s' ∧ Done env h q σ.st σ.d c h' s' r) := by
  by_cases hpl : c.plain = true
  · exact Api.Total.of_sat (plain_num mt fk hs hg hr hpl hp hb hst) hs
  cases hr with
  | gc force keep =>
    simp only [Spec.step, Option.bind_eq_bind, Option.bind_eq_some_iff] at hst
    obtain ⟨vs, hvs, hst⟩ := hst
    cases hst
    obtain ⟨es, h1, h2⟩ := F3.keep (Q := fun (V : Vec ℝ) (c : Nat) => kap W V.k * c ≤ 1) hg.vs 0 (keep := keep) hvs hb
    have hprog : prog env mt fk σ.d (.gc force keep) = Prog.step (fun tid s =>
        match gc env tid force σ.d.thr es s with
        | .error er => .error er
        | .ok (es, thr, ran, s) => .ok ((es, thr, ran), s)) (fun b => Prog.ret
          (({ σ.d with vs := b.1, thr := b.2.1, memo := if b.2.2 then fun _ => none else σ.d.memo } : Data R W),
            (.unit : Out R W))) := by
      simp only [prog]
      rw [h1]
      rfl
    rw [hprog]
    refine Api.Total.of_step fun tid => ?_
    obtain ⟨es', thr', ran, s', a1, a2, a3, a4, a5⟩ := gc_num hs tid force σ.d.thr es
      (fun e he => by obtain ⟨V, c, h3, _⟩ := h2.mem e he; exact ⟨V.k, h3.lv⟩)
    refine ⟨(es', thr', ran), s', by simp only [a1], a2, ⟨?_, ?_⟩, fun v V e => (by cases e), ?_⟩
    · have h3 := h2.comp (T := fun V c e' => VNear env s' V (c + 1) e') (fun V c e e' hx hy => gc_near hs hx.1 hx.2 hy) a5
      have h4 := h3.map2 (f := (· + 1)) (T := VNear env s') fun _ _ _ h => h
      rw [List.map_map] at h4
      exact h4
    · exact hg.ms.imp fun _ _ _ h => h.mt a3
    · cases ran
      · exact .inr ⟨rfl, .inr (by rw [a4 rfl])⟩
      · exact .inl rfl
  | gcMat force keep =>
    simp only [Spec.step, Option.bind_eq_bind, Option.bind_eq_some_iff] at hst
    obtain ⟨ms, hms, hst⟩ := hst
    cases hst
    obtain ⟨es, h1, h2⟩ := F3.keep (Q := fun _ _ => True) hg.ms ⟨0, 0⟩ (keep := keep) hms (fun _ _ _ _ => trivial)
    have hprog : prog env mt fk σ.d (.gcMat force keep) = Prog.step (fun tid s =>
        match gcMat env tid force σ.d.thrM es s with
        | .error er => .error er
        | .ok (es, thr, _, s) => .ok ((es, thr), s)) (fun b => Prog.ret
          (({ σ.d with ms := b.1, thrM := b.2 } : Data R W), (.unit : Out R W))) := by
      simp only [prog]
      rw [h1]
      rfl
    rw [hprog]
    refine Api.Total.of_step fun tid => ?_
    obtain ⟨es', thr', ran, s', a1, a2, a3, a5⟩ := gcMat_num hs tid force σ.d.thrM es
      (fun e he => by obtain ⟨M, c, h3, _⟩ := h2.mem e he; exact h3.ok.lv.reg)
    refine ⟨(es', thr'), s', by simp only [a1], a2, ⟨?_, ?_⟩, fun v V e => (by cases e), .inr ⟨rfl, .inr a3⟩⟩
    · exact hg.vs.imp fun _ _ _ h => h.vt a3
    · have h3 := h2.comp (T := fun M c e' => MNear env s' M (MCost.collected c) e') (fun V c e e' hx hy => gcMat_near hs hx.1 hy) a5
      have h4 := h3.map2 (f := MCost.collected) (T := MNear env s') fun _ _ _ h => h
      rw [List.map_map] at h4
      exact h4
  | zero | one | gate | gate2 | cx | cswap | mv | getVector => exact absurd rfl hpl
  | swap | mmul => cases hc

theorem sat_runs {α : Type} {p : QDD.P W α} {s : St W} {Q} (h : Sat (nworld env) p s Q) (hi : NInv env s) :
    Runs p s fun a s' => NInv env s' ∧ Grow env s s' ∧ Q s' a := by
  obtain ⟨a, s', h1, h2, h3, h4⟩ := h.run hi
  exact ⟨a, s', h1, h2, h3, h4 s' h2 (Grow.refl env s')⟩

theorem mmul_runs {s : St W} (hs : NInv env s) {k : Nat} {U V : Nat → Nat → C ℝ} {M : Mat ℝ} {x y : MCost} {l r : Edge W}
    (hMk : M.k = k) (hMF : ∀ i < 2 ^ k, ∀ j < 2 ^ k, M.F i j = ∑ m ∈ range (2 ^ k), U i m * V m j)
    (hA : MNear env s ⟨k, U⟩ x l) (hB : MNear env s ⟨k, V⟩ y r) (hb : D W k * (x.mul y).err ≤ 1 / 1000) :
    Runs (mmMul env l r) s fun e s' => NInv env s' ∧ Grow env s s' ∧ MNear env s' M (x.mul y) e := by
  have hl := hA.ok.lv
  have hr := hB.ok.lv
  obtain ⟨e, s', h1, h2, h3, _⟩ := Safe.mmMul_run hs.base hl.reg hr.reg
  obtain ⟨g1, g2⟩ := mmMul_num hs hl.reg hr.reg h1
  exact ⟨e, s', h1, g1, h3, prod_near g1 hMk hMF (hA.ext hs h3) (hB.ext hs h3) hb (g2 k hA.le (hl.ext h3) (hr.ext h3))⟩

theorem permF_mul {n : Nat} {f g : Nat → Nat} (hg : ∀ j < 2 ^ n, g j < 2 ^ n) {i j : Nat} (hj : j < 2 ^ n) :
    (permM n (fun j => f (g j)) : Mat ℝ).F i j = ∑ m ∈ range (2 ^ n), (permM n f : Mat ℝ).F i m * (permM n g : Mat ℝ).F m j := by
  unfold permM
  dsimp only
  rw [Finset.sum_eq_single (g j)]
  · simp
  · intro b _ hb; simp [hb]
  · intro h; exact (h (mem_range.2 (hg j hj))).elim

theorem cx_near {s : St W} (hs : NInv env s) {n t c : Nat} (ht : t < n) (hc : c < n) (htc : t ≠ c) (hn : n ≤ NQUBITS) :
    Sat (nworld env) (makeGate env n xmat t [⟨c, false⟩]) s (fun s' e => MNear env s' (permM n (cnot t c)) ⟨2, 1⟩ e) :=
  gate_near hs (cs := [⟨c, false⟩]) (u := xmat) ht hn (by simp) (by simpa using Ne.symm htc) xmat_iso (fun r _ c _ => xmat_val r c) rfl
    fun i hi j hj => cx_gate ht hc htc hi hj

/-- SWAP. -/
theorem swap_runs {s : St W} (hs : NInv env s) {n t0 t1 : Nat} (h0 : t0 < n) (h1 : t1 < n) (h01 : t0 ≠ t1) (hn : n ≤ NQUBITS)
    (hb : D W n * 184 ≤ 1 / 1000) :
    Runs (makeSwap env n t0 t1) s fun e s' => NInv env s' ∧ Grow env s s' ∧ MNear env s' (permM n (exch t0 t1)) ⟨8, 184⟩ e := by
  have hD := D_nn (W := W) n
  unfold makeSwap
  refine Runs.bind (sat_runs (cx_near hs h1 h0 (Ne.symm h01) hn) hs) fun e1 s1 _ ⟨i1, f1, m1⟩ => ?_
  refine Runs.bind (sat_runs (cx_near i1 h0 h1 h01 hn) i1) fun e2 s2 _ ⟨i2, f2, m2⟩ => ?_
  have hcx : ∀ j < 2 ^ n, cnot t1 t0 j < 2 ^ n := fun j hj => cxPerm_lt h1 hj
  have hcx' : ∀ j < 2 ^ n, cnot t0 t1 j < 2 ^ n := fun j hj => cxPerm_lt h0 hj
  refine Runs.bind (mmul_runs i2 (M := permM n fun j => cnot t0 t1 (cnot t1 t0 j)) rfl
    (fun i hi j hj => permF_mul (f := cnot t0 t1) (g := cnot t1 t0) hcx hj) m2 (m1.ext i1 f2) (by
      show D W n * ((32 : Nat) : ℝ) ≤ _
      push_cast; linarith)) fun e3 s3 _ ⟨i3, f3, m3⟩ => ?_
  refine Runs.mono (mmul_runs i3 (M := permM n (exch t0 t1)) rfl (fun i hi j hj => ?_) ((m1.ext i1 f2).ext i2 f3) m3 (by
      show D W n * ((184 : Nat) : ℝ) ≤ _
      push_cast; linarith)) fun e4 s4 ⟨i4, f4, m4⟩ => ⟨i4, ((f1.trans f2).trans f3).trans f4, m4⟩
  rw [show exch t0 t1 = fun j => cnot t1 t0 (cnot t0 t1 (cnot t1 t0 j)) from funext fun j => (cx_swap h01).symm]
  exact permF_mul (f := cnot t1 t0) (g := fun j => cnot t0 t1 (cnot t1 t0 j)) (fun j hj => hcx' _ (hcx j hj)) hj

theorem mul_self (A B : Mat ℝ) (hk : A.k = B.k) : (A.mul B).k = A.k ∧ ∀ i < 2 ^ A.k, ∀ j < 2 ^ A.k,
    (A.mul B).F i j = ∑ m ∈ range (2 ^ A.k), A.F i m * B.F m j := by
  obtain ⟨k, U⟩ := A
  obtain ⟨k', V⟩ := B
  dsimp only at hk
  subst hk
  refine ⟨max_self k, fun i hi j hj => ?_⟩
  show ∑ m ∈ range (2 ^ max k k), (⟨k, U⟩ : Mat ℝ).at (max k k) i m * (⟨k, V⟩ : Mat ℝ).at (max k k) m j = _
  rw [max_self]
  refine Finset.sum_congr rfl fun m hm => ?_
  rw [Props.at_self (⟨k, U⟩ : Mat ℝ) hi (mem_range.1 hm), Props.at_self (⟨k, V⟩ : Mat ℝ) (mem_range.1 hm) hj]

/-- The calls that never fork. -/
theorem seq_num (mt : Bool) (fk : Nat → Bool) {σ : Safe.Sys R W} {h : Heap ℝ} {q : Cost} (hs : NInv env σ.st)
    (hg : NearD env σ.st σ.d h q) {c : Safe.Call R W} {c' : Cmd ℝ} (hr : Rounded c c') (hc : c.seq = true)
    (hp : Spec.pre NQUBITS h c') (hb : Budget h q c) {h' o'} (hst : Spec.step Real.sqrt h c' = some (h', o')) :
    Runs (prog env mt fk σ.d c) σ.st (fun r s' => NInv env s' ∧ Done env h q σ.st σ.d c h' s' r) := by
  have new : ∀ {p : QDD.P W (Edge W)} {M : Mat ℝ} {x : MCost}, (∀ v, c ≠ .getVector v) →
      h' = h.addM M → q.after c = { q with ms := q.ms ++ [x] } →
      Runs p σ.st (fun e s' => NInv env s' ∧ Grow env σ.st s' ∧ MNear env s' M x e) →
      Runs (do return (σ.d.addM (← p), (.unit : Out R W))) σ.st
        (fun r s' => NInv env s' ∧ Done env h q σ.st σ.d c h' s' r) := by
    intro p M x hv e1 e2 hx
    refine Runs.bind hx fun e s' _ ⟨a, b, m⟩ => Runs.pure ⟨a, ?_, fun v V e => absurd e (hv v), .inr ⟨rfl, .inl b⟩⟩
    rw [e1, e2]
    exact ⟨(hg.ext hs b).vs, (hg.ext hs b).ms.snoc m⟩
  cases hr with
  | swap n t0 t1 =>
    cases hst
    obtain ⟨h1, h2, h3, h4⟩ := hp
    exact new (by intro v; simp) rfl rfl (swap_runs hs h1 h2 h3 h4 hb)
  | mmul a b =>
    obtain ⟨A, B, hA, hB⟩ := hp
    simp only [Spec.step, hA, hB, Option.bind_eq_bind, Option.bind_some] at hst
    cases hst
    obtain ⟨hk, hbud⟩ := hb A B hA hB
    obtain ⟨x, ea, g1, g2, g3⟩ := hg.ms.get hA
    obtain ⟨y, eb, g4, g5, g6⟩ := hg.ms.get hB
    simp only [Cost.mat, getD_of' g1, getD_of' g4] at hbud
    simp only [prog, handle_bind g2, handle_bind g5]
    obtain ⟨m1, m2⟩ := mul_self A B hk
    refine new (M := A.mul B) (x := x.mul y) (by intro v; simp) rfl ?_ (mmul_runs hs (k := A.k) (U := A.F) (V := B.F) m1 m2 g3
      (by rw [hk]; exact g6) hbud)
    simp only [Cost.after, Cost.mat, getD_of' g1, getD_of' g4]
  | zero | one | gate | gate2 | cx | cswap | mv | getVector | gc | gcMat => cases hc

theorem exec_num {mt : Bool} {σ σ' : Safe.Sys R W} {h : Heap ℝ} {q : Cost} (hs : NInv env σ.st)
    (hg : NearD env σ.st σ.d h q) {c : Safe.Call R W} {c' : Cmd ℝ} (hr : Rounded c c')
    (hp : Spec.pre NQUBITS h c') (hb : Budget h q c) {h' o' o} (hst : Spec.step Real.sqrt h c' = some (h', o'))
    (he : Safe.Exec env mt σ c o σ') : NInv env σ'.st ∧ NearD env σ'.st σ'.d h' (q.after c) ∧
      (∀ v V, c = .getVector v → h.vs[v]? = some V → Reads o V (kap W V.k * (q.vs.getD v 0 + 1))) ∧
      Kept env σ.st σ.d σ'.st σ'.d := by
  cases he with
  | conc h1 h2 =>
    have := (call_num mt _ hs hg hr h1 hp hb hst).2 _ _ h2
    exact ⟨this.1, this.2.1, this.2.2.1, this.2.2.2⟩
  | seq h1 h2 =>
    obtain ⟨a, s', h3, h4⟩ := seq_num mt _ hs hg hr h1 hp hb hst
    rw [h2] at h3
    cases h3
    exact ⟨h4.1, h4.2.1, h4.2.2.1, h4.2.2.2⟩

/-- The invariant along a history. -/
theorem Run.near {mt : Bool} {thr thrM : Nat} {cs h q} {σ : Safe.Sys R W} (hR : Run env mt thr thrM cs h q σ) :
    NInv env σ.st ∧ NearD env σ.st σ.d h q := by
  induction hR with
  | init => exact ⟨init_ninv, .nil, .nil⟩
  | call _ hr hp hb hst he ih =>
    have := exec_num ih.1 ih.2 hr hp hb hst he
    exact ⟨this.1, this.2.1⟩

end QDD.Num
