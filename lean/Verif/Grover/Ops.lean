import Verif.Grover.Model
import Verif.Py.Pauli
/-!
# What the gates of the Grover program do to amplitudes
-/

set_option linter.unusedSectionVars false
set_option linter.unusedVariables false
set_option linter.unusedSimpArgs false

namespace QDD.Grover
open Spec Api Gate Props Py Py.Client
open Finset (range mem_range)

/-- A controlled one-qubit operator. -/
noncomputable def cact (N q : Nat) (cs : List Ctrl) (m : Bool → Bool → CR) (f : Nat → CR) : Nat → CR := fun i =>
  if sat cs N i then act q m f i else f i

theorem app_gate1c {n q : Nat} (hq : q < n) (g : Nat → Nat → CR) (cs : List Ctrl) (f : Nat → CR) {i : Nat} (hi : i < 2 ^ n) :
    app n (Spec.gate1 n g q cs) f i = cact n q cs (fun a b => g (bit a) (bit b)) f i := by
  unfold cact
  have hnil : sat [] n i := fun c hc => by cases hc
  by_cases hs : sat cs n i
  · rw [if_pos hs, ← app_gate1 hq g f hi]
    unfold app
    refine Finset.sum_congr rfl fun j _ => ?_
    congr 1
    unfold Spec.gate1
    simp only [if_pos hs, if_pos hnil]
  · rw [if_neg hs]
    have e : app n (Spec.gate1 n g q cs) f i = app n (Spec.gate1 n Imat q []) f i := by
      unfold app
      refine Finset.sum_congr rfl fun j _ => ?_
      congr 1
      unfold Spec.gate1
      simp only [if_neg hs, if_pos hnil]
      have : (if i.testBit q = j.testBit q then (1 : CR) else 0) = Imat (bit (i.testBit q)) (bit (j.testBit q)) := by
        cases i.testBit q <;> cases j.testBit q <;> simp [bit, Imat, g4, cOne, cZero] <;> rfl
      rw [this]
    rw [e, app_gate1 hq Imat f hi]
    unfold act
    cases i.testBit q <;> simp [bit, Imat, g4, cOne, cZero]
    · rw [show (⟨1, 0⟩ : CR) = 1 from rfl, show (⟨0, 0⟩ : CR) = 0 from rfl, one_mul, zero_mul, add_zero]
    · rw [show (⟨1, 0⟩ : CR) = 1 from rfl, show (⟨0, 0⟩ : CR) = 0 from rfl, one_mul, zero_mul, add_zero]

/-- The matrix, on `N` qubits, does `op`. -/
structure Acts (N : Nat) (M : Mat ℝ) (op : (Nat → CR) → Nat → CR) : Prop where
  k : M.k ≤ N
  eq : ∀ f : Nat → CR, ∀ i < 2 ^ N, ∑ j ∈ range (2 ^ N), M.at N i j * f j = op f i

theorem Acts.of_app {N : Nat} {A : Nat → Nat → CR} {op : (Nat → CR) → Nat → CR}
    (h : ∀ f : Nat → CR, ∀ i < 2 ^ N, app N A f i = op f i) : Acts N ⟨N, A⟩ op :=
  ⟨le_rfl, fun f i hi => by
    rw [← h f i hi]
    refine Finset.sum_congr rfl fun j hj => ?_
    rw [show (⟨N, A⟩ : Mat ℝ).at N i j = A i j from at_self ⟨N, A⟩ hi (mem_range.1 hj)]⟩

theorem Acts.ident (N : Nat) : Acts N ⟨0, fun _ _ => 1⟩ id :=
  ⟨Nat.zero_le _, fun f i hi => by
    rw [Finset.sum_eq_single i]
    · simp [Mat.at]
    · intro j _ hj
      simp [Mat.at, Ne.symm hj]
    · intro h; exact absurd (mem_range.2 hi) h⟩

theorem Acts.mul {N : Nat} {A B : Mat ℝ} {a b : (Nat → CR) → Nat → CR} (ha : Acts N A a) (hb : Acts N B b) :
    Acts N (A.mul B) (fun f => a (b f)) :=
  ⟨max_le ha.k hb.k, fun f i hi => by
    have e : ∀ j ∈ range (2 ^ N), (A.mul B).at N i j * f j = ∑ m ∈ range (2 ^ N), A.at N i m * (B.at N m j * f j) := by
      intro j hj
      rw [at_mul A B ha.k hb.k hi (mem_range.1 hj), Finset.sum_mul]
      exact Finset.sum_congr rfl fun m _ => mul_assoc _ _ _
    rw [Finset.sum_congr rfl e, Finset.sum_comm]
    have e2 : ∀ m ∈ range (2 ^ N), (∑ j ∈ range (2 ^ N), A.at N i m * (B.at N m j * f j)) = A.at N i m * b f m := by
      intro m hm
      rw [← Finset.mul_sum, hb.eq f m (mem_range.1 hm)]
    rw [Finset.sum_congr rfl e2, ha.eq (b f) i hi]⟩

/-- One command after another. -/
def runOps (ops : List ((Nat → CR) → Nat → CR)) (f : Nat → CR) : Nat → CR := ops.foldl (fun f o => o f) f

/-- The gate command makes a matrix that does `op`. -/
def Makes (N : Nat) (c : Cmd ℝ) (op : (Nat → CR) → Nat → CR) : Prop :=
  ∀ (sqrt : ℝ → ℝ) (h : Heap ℝ), pre NQUBITS h c ∧ ∃ M, step sqrt h c = some (h.addM M, .unit) ∧ Acts N M op

theorem Makes.gate {N q : Nat} (hq : q < N) (hN : N ≤ NQUBITS) {g : Nat → Nat → CR} {cs : List Ctrl}
    (h1 : cs.Pairwise (fun a b => a.qubit < b.qubit)) (h2 : ∀ c ∈ cs, c.qubit ≠ q) :
    Makes N (.gate N g q cs) (cact N q cs fun a b => g (bit a) (bit b)) := fun sqrt h =>
  ⟨⟨hq, hN, h1, h2⟩, _, rfl, Acts.of_app fun f i hi => app_gate1c hq g cs f hi⟩

theorem Makes.ident (N : Nat) : Makes N .ident id := fun sqrt h => ⟨trivial, _, rfl, Acts.ident N⟩

/-- The handle names a matrix that does `op`. -/
def Holds (N : Nat) (h : Heap ℝ) (g : Nat) (op : (Nat → CR) → Nat → CR) : Prop := ∃ M, h.ms[g]? = some M ∧ Acts N M op

theorem Holds.addM {N : Nat} {h : Heap ℝ} {g : Nat} {op : (Nat → CR) → Nat → CR} (hg : Holds N h g op) (M : Mat ℝ) :
    Holds N (h.addM M) g op := by
  obtain ⟨A, h1, h2⟩ := hg
  exact ⟨A, addM_old h1, h2⟩

theorem Holds.addV {N : Nat} {h : Heap ℝ} {g : Nat} {op : (Nat → CR) → Nat → CR} (hg : Holds N h g op) (V : Vec ℝ) :
    Holds N (h.addV V) g op := hg

theorem len_addM (h : Heap ℝ) (M : Mat ℝ) : (h.addM M).ms.length - 1 = h.ms.length := by
  unfold Heap.addM; simp

theorem len_addV (h : Heap ℝ) (V : Vec ℝ) : (h.addV V).vs.length - 1 = h.vs.length := by
  unfold Heap.addV; simp

variable {sqrt : ℝ → ℝ} {α : Type} {T : Option α → Prop} {x : ℝ}

theorem makeAll_meets {N : Nat} : ∀ (cs : List (Cmd ℝ)) (ops : List ((Nat → CR) → Nat → CR)), List.Forall₂ (Makes N) cs ops →
    ∀ (h : Heap ℝ) (acc : List Nat) (aops : List ((Nat → CR) → Nat → CR)), List.Forall₂ (Holds N h) acc aops →
    ∀ (k : List Nat → Client α),
    (∀ h' gs, h'.vs = h.vs → (∀ g op, Holds N h g op → Holds N h' g op) → List.Forall₂ (Holds N h') gs (aops ++ ops) →
      Meets sqrt (k gs) h' T x) → Meets sqrt (makeAll cs acc k) h T x := by
  intro cs ops hm
  induction hm with
  | nil =>
    intro h acc aops ha k hk
    exact hk h acc rfl (fun _ _ h => h) (by rw [List.append_nil]; exact ha)
  | @cons c op cs ops h1 _ ih =>
    intro h acc aops ha k hk
    obtain ⟨hp, M, hs, hM⟩ := h1 sqrt h
    unfold makeAll
    refine Meets.call hp hs ?_
    refine ih (h.addM M) _ (aops ++ [op]) ?_ k ?_
    · refine List.rel_append ?_ ?_
      · exact ha.imp fun g o hg => hg.addM M
      · refine .cons ?_ .nil
        rw [len_addM]
        exact ⟨M, addM_new h M, hM⟩
    · intro h' gs hv hext hgs
      refine hk h' gs hv (fun g o hg => hext g o (hg.addM M)) ?_
      rw [List.append_assoc] at hgs
      exact hgs

theorem buildLoop_meets {N : Nat} : ∀ (gs : List Nat) (ops : List ((Nat → CR) → Nat → CR)) (h : Heap ℝ),
    List.Forall₂ (Holds N h) gs ops →
    ∀ (rhs : Nat) (op : (Nat → CR) → Nat → CR), Holds N h rhs op → ∀ (k : Nat → Client α),
    (∀ h' g, h'.vs = h.vs → (∀ g op, Holds N h g op → Holds N h' g op) → Holds N h' g (fun f => runOps ops (op f)) →
      Meets sqrt (k g) h' T x) → Meets sqrt (buildLoop gs rhs k) h T x := by
  intro gs
  induction gs with
  | nil =>
    intro ops h hm rhs op ho k hk
    cases hm
    exact hk h rhs rfl (fun _ _ h => h) ho
  | cons g gs ih =>
    intro ops h hm rhs op ho k hk
    cases hm with
    | @cons _ o _ ops hg hgs =>
    obtain ⟨A, hA, hA'⟩ := hg
    obtain ⟨B, hB, hB'⟩ := ho
    unfold buildLoop
    refine Meets.call (h1 := h.addM (A.mul B)) (o := .unit) ⟨A, B, hA, hB⟩ ?_ ?_
    · simp only [Spec.step, hA, hB, Option.bind_eq_bind, Option.bind_some]
    · rw [len_addM]
      refine ih ops (h.addM (A.mul B)) (hgs.imp fun g o hg => hg.addM _) h.ms.length (fun f => o (op f))
        ⟨_, addM_new h _, hA'.mul hB'⟩ k ?_
      intro h' g hv hext hg
      exact hk h' g hv (fun g o hg => hext g o (hg.addM _)) hg

theorem buildUnitary_meets {N : Nat} {gs : List Nat} {ops : List ((Nat → CR) → Nat → CR)} {h : Heap ℝ}
    (hm : List.Forall₂ (Holds N h) gs ops) (hne : ops ≠ []) {k : Nat → Client α}
    (hk : ∀ h' g, h'.vs = h.vs → (∀ g op, Holds N h g op → Holds N h' g op) → Holds N h' g (runOps ops) →
      Meets sqrt (k g) h' T x) : Meets sqrt (buildUnitary gs k) h T x := by
  cases hm with
  | nil => exact absurd rfl hne
  | @cons g o gs ops hg hgs => exact buildLoop_meets gs ops h hgs g o hg k hk

/-- The handle names the state `f`. -/
def HoldsV (N : Nat) (h : Heap ℝ) (v : Nat) (f : Nat → CR) : Prop :=
  ∃ V, h.vs[v]? = some V ∧ V.k = N ∧ ∀ i < 2 ^ N, V.f i = f i

/-- The operator only looks at the amplitudes of `N` qubits. -/
theorem Acts.congr {N : Nat} {M : Mat ℝ} {op : (Nat → CR) → Nat → CR} (ha : Acts N M op) {f g : Nat → CR}
    (hfg : ∀ i < 2 ^ N, f i = g i) : ∀ i < 2 ^ N, op f i = op g i := by
  intro i hi
  rw [← ha.eq f i hi, ← ha.eq g i hi]
  exact Finset.sum_congr rfl fun j hj => by rw [hfg j (mem_range.1 hj)]

theorem mv_meets {N : Nat} {h : Heap ℝ} {m v : Nat} {op : (Nat → CR) → Nat → CR} {f : Nat → CR} (hm : Holds N h m op)
    (hv : HoldsV N h v f) {k : Obs ℝ → Nat → Nat → Client α}
    (hk : ∀ V : Vec ℝ, HoldsV N (h.addV V) h.vs.length (op f) →
      Meets sqrt (k .unit (h.addV V).vs.length (h.addV V).ms.length) (h.addV V) T x) :
    Meets sqrt (.call (.mv m v) k) h T x := by
  obtain ⟨M, hM, ha⟩ := hm
  obtain ⟨V, hV, rfl, hf⟩ := hv
  refine Meets.call (h1 := h.addV (M.apply V)) (o := .unit) ⟨M, V, hM, hV, ha.k⟩ ?_ (hk _ ?_)
  · simp only [Spec.step, hM, hV, Option.bind_eq_bind, Option.bind_some]
  · refine ⟨_, addV_new h _, rfl, fun i hi => ?_⟩
    show ∑ j ∈ range (2 ^ V.k), M.at V.k i j * V.f j = _
    rw [ha.eq V.f i hi]
    exact ha.congr hf i hi

theorem applyN_meets {N m : Nat} {op : (Nat → CR) → Nat → CR} : ∀ (r : Nat) (h : Heap ℝ) (v : Nat) (f : Nat → CR),
    Holds N h m op → HoldsV N h v f → ∀ (k : Nat → Client α),
    (∀ h' v', h'.ms = h.ms → HoldsV N h' v' (op^[r] f) → Meets sqrt (k v') h' T x) →
    Meets sqrt (applyN m r v k) h T x := by
  intro r
  induction r with
  | zero => intro h v f hm hv k hk; exact hk h v rfl hv
  | succ r ih =>
    intro h v f hm hv k hk
    unfold applyN
    refine mv_meets hm hv fun V hV => ?_
    rw [len_addV]
    refine ih (h.addV V) _ (op f) hm hV k fun h' v' hms hv' => hk h' v' hms ?_
    exact hv'

theorem preLoop_meets {N m : Nat} {op : (Nat → CR) → Nat → CR} : ∀ (r : Nat) (h : Heap ℝ) (v : Nat) (f : Nat → CR),
    Holds N h m op → HoldsV N h v f → ∀ (k : Nat → Nat → Client α),
    (∀ h' r' v', h'.ms = h.ms → r' ≤ r → r' % 8 = 0 → HoldsV N h' v' (op^[r - r'] f) → Meets sqrt (k r' v') h' T x) →
    Meets sqrt (preLoop m r v k) h T x := by
  intro r
  induction r with
  | zero => intro h v f hm hv k hk; exact hk h 0 v rfl le_rfl rfl hv
  | succ r ih =>
    intro h v f hm hv k hk
    unfold preLoop
    by_cases h8 : (r + 1) % 8 ≠ 0
    · rw [if_pos h8]
      refine mv_meets hm hv fun V hV => ?_
      rw [len_addV]
      refine ih (h.addV V) _ (op f) hm hV k fun h' r' v' hms hr' hr8 hv' => hk h' r' v' hms (by omega) hr8 ?_
      rw [show r + 1 - r' = (r - r') + 1 from by omega]
      exact hv'
    · rw [if_neg h8]
      refine hk h (r + 1) v rfl le_rfl (by omega) ?_
      rw [Nat.sub_self]
      exact hv

theorem mainLoop_meets {N m : Nat} {op : (Nat → CR) → Nat → CR} : ∀ (fuel r : Nat) (h : Heap ℝ) (v : Nat) (f : Nat → CR),
    r ≤ fuel → r % 8 = 0 → Holds N h m op → HoldsV N h v f → ∀ (k : Nat → Client α),
    (∀ h' v', h'.ms = h.ms → HoldsV N h' v' (op^[r] f) → Meets sqrt (k v') h' T x) →
    Meets sqrt (mainLoop m fuel r v k) h T x := by
  intro fuel
  induction fuel with
  | zero =>
    intro r h v f hr h8 hm hv k hk
    obtain rfl : r = 0 := by omega
    exact hk h v rfl hv
  | succ fuel ih =>
    intro r h v f hr h8 hm hv k hk
    unfold mainLoop
    by_cases h0 : r = 0
    · subst h0
      rw [if_pos rfl]
      exact hk h v rfl hv
    · rw [if_neg h0]
      refine applyN_meets 8 h v f hm hv _ fun h1 v1 hms1 hv1 => ?_
      have hm1 : Holds N h1 m op := by unfold Holds; rw [hms1]; exact hm
      refine ih (r - 8) h1 v1 _ (by omega) (by omega) hm1 hv1 k fun h' v' hms hv' => hk h' v' (hms.trans hms1) ?_
      rw [← Function.iterate_add_apply, show r - 8 + 8 = r from by omega] at hv'
      exact hv'

end QDD.Grover
