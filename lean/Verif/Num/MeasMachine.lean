import Verif.Num.MatRead
import Verif.Num.Collapse
import Verif.Props.Measure
/-!
# Numerical accuracy of histories that measure

`Meas` gives, for a measurement call and the result it returned, what becomes of the exact states; `MRun` are histories of
the calls of `Num/Machine.lean` and of measurement calls.
-/

set_option linter.unusedSectionVars false
set_option linter.unusedVariables false
set_option linter.unusedSimpArgs false

namespace QDD.Num
open RoundW NumW Prog Safe
open Finset (range mem_range)
open Spec (C Vec Mat Heap Cmd Ctrl)

variable {R W : Type} [WOps W] [ROps R W] [RoundW W] [NumW W] {env : Env W}
local notation "ε" => NumW.eps W

/-- A read of the shared state, then the rest of the call: no other fiber is running yet. -/
theorem total_peek {α β : Type} {f : St W → Except Err β} {k : β → QDD.P W α} {s : St W} {b : β} {Q : St W → α → Prop}
    (h : f s = .ok b) (hk : Api.Total (k b) s Q) : Api.Total (peek f >>= k) s Q := by
  have e : (peek f >>= k) = Prog.step (fun _ s => match f s with | .error er => .error er | .ok x => .ok (x, s)) k := rfl
  rw [e]
  refine ⟨fun p' s' hst => ?_, fun a s' hst => ?_⟩
  · rcases hst.of_step with ⟨rfl, rfl⟩ | ⟨tid, b', s1, h1, h2⟩
    · refine ⟨fun hf => ?_, ?_⟩
      · cases hf with
        | step tid he => simp only [h] at he; cases he
      · obtain ⟨_, a, s2, h3⟩ := hk.1 _ _ .refl
        exact ⟨a, s2, (Steps.tail .refl (.step 0 (by simp only [h]))).trans h3⟩
    · simp only [h] at h1
      cases h1
      exact hk.1 _ _ h2
  · rcases hst.of_step with ⟨h1, _⟩ | ⟨tid, b', s1, h1, h2⟩
    · cases h1
    · simp only [h] at h1
      cases h1
      exact hk.2 _ _ h2

theorem total_ret {α : Type} {a : α} {s : St W} {Q : St W → α → Prop} (h : Q s a) : Api.Total (Prog.ret a : QDD.P W α) s Q := by
  refine ⟨fun p' s' hst => ?_, fun b s' hst => ?_⟩
  · obtain ⟨rfl, rfl⟩ := hst.of_ret
    exact ⟨(fun hf => by cases hf), a, _, .refl⟩
  · obtain ⟨h1, rfl⟩ := hst.of_ret
    cases h1
    exact h

theorem total_mono {α : Type} {p : QDD.P W α} {s : St W} {Q Q' : St W → α → Prop} (h : Api.Total p s Q)
    (hq : ∀ s' a, Q s' a → Q' s' a) : Api.Total p s Q' := ⟨h.1, fun a s' hst => hq s' a (h.2 a s' hst)⟩

theorem F3.set {α β γ : Type} {P : α → β → γ → Prop} {as bs cs} (h : F3 P as bs cs) : ∀ (i : Nat) {a b c}, P a b c →
    F3 P (as.set i a) (bs.set i b) (cs.set i c) := by
  induction h with
  | nil => intro i a b c _; exact .nil
  | cons h1 h2 ih =>
    intro i a b c hp
    cases i with
    | zero => exact .cons hp h2
    | succ i => exact .cons h1 (ih i hp)

theorem set_same {α : Type} : ∀ {l : List α} {i : Nat} {a : α}, l[i]? = some a → l.set i a = l
  | [], _, _, h => by simp at h
  | b :: l, 0, a, h => by simp at h; subst h; rfl
  | b :: l, i + 1, a, h => by rw [List.set_cons_succ, set_same (by simpa using h)]

theorem bitList_bits (k x : Nat) : (bitList k x).reverse = Spec.bits k x := rfl

section meas
variable [NumR R W] [RoundR R W]
local notation "ρ" => NumR.rv (R := R) (W := W)
local notation "μ" => NumR.u R W
local notation "η" => NumR.eta R W

theorem MemoNum.vt {s s' : St W} (ht : s'.vt = s.vt) {m : Memo R} (h : MemoNum env s m) : MemoNum env s' m := by
  refine ⟨⟨h.ok.ge, fun p hp => by rw [ht]; exact h.ok.node p hp⟩, ?_⟩
  have := h.acc
  unfold VPtr at this ⊢
  rw [ht]; exact this

/-- The state of the machine along a history. -/
structure Acc (env : Env W) (σ : Safe.Sys R W) (h : Heap ℝ) (q : Cost) : Prop where
  inv : NInv env σ.st
  near : NearD env σ.st σ.d h q
  memo : MemoNum env σ.st σ.d.memo

theorem Acc.kept {σ σ' : Safe.Sys R W} {h : Heap ℝ} {q : Cost} (ha : Acc env σ h q) (hk : Kept env σ.st σ.d σ'.st σ'.d) :
    MemoNum env σ'.st σ'.d.memo := by
  rcases hk with h1 | ⟨h1, h2 | h2⟩
  · rw [h1]; exact MemoNum.empty _
  · rw [h1]; exact ha.memo.ext ha.inv.base h2
  · rw [h1]; exact ha.memo.vt h2

/-- The error bound of a handle. -/
noncomputable def errB (W : Type) [WOps W] [RoundW W] [NumW W] (V : Vec ℝ) (q : Cost) (v : Nat) : ℝ := kap W V.k * q.vs.getD v 0

/-- `probabilities`. -/
theorem probabilities_total {σ : Safe.Sys R W} {h : Heap ℝ} {q : Cost} (ha : Acc env σ h q) {v : Nat} {V : Vec ℝ}
    (hv : h.vs[v]? = some V) (hk : V.k ≤ 30) (hb : errB W V q v < 1) :
    ∃ l : List R, l.length = 2 ^ V.k ∧
      (∀ (i : Nat) (x : R), l[i]? = some x → |ρ x - (V.f i).mag2| ≤ 4 * errB W V q v + 384 * V.k ^ 2 * μ) ∧
      ∀ mt fk, Api.Total (prog env mt fk σ.d (.probabilities v)) σ.st (fun s' r => r.2 = .probs l ∧ Acc env ⟨r.1, s'⟩ h q) := by
  obtain ⟨cv, e, g4, g5, g6⟩ := ha.near.vs.get hv
  have hE : errB W V q v = kap W V.k * cv := by unfold errB; rw [getD_of g4]
  rw [hE] at hb ⊢
  obtain ⟨l, m', h1, h2, h3, h4⟩ := probabilities_num ha.inv ha.memo g6.pos hk (g6.ptr hb)
  refine ⟨l, h3, fun i x hx => ?_, fun mt fk => ?_⟩
  · have h5 := h4 i x hx
    have h6 := born_near g6 hb
    have hi : i < 2 ^ V.k := by
      by_contra hc
      rw [List.getElem?_eq_none (by omega)] at hx; cases hx
    rw [bsum_eq] at h6
    have h7 : |tau σ.st.vt.mem V.k e.n i - (V.f i).mag2| ≤ 4 * (kap W V.k * cv) :=
      le_trans (Finset.single_le_sum (f := fun x => |tau σ.st.vt.mem V.k e.n x - (V.f x).mag2|) (fun i _ => abs_nonneg _) (mem_range.2 hi)) h6
    have := abs_sub_le (ρ x) (tau σ.st.vt.mem V.k e.n i) (V.f i).mag2
    linarith
  · simp only [prog, handle_bind g5]
    refine total_peek h1 (total_ret ?_)
    exact ⟨rfl, ha.inv, ⟨ha.near.vs, ha.near.ms⟩, h2⟩

/-- `getMatrix` of a handle on at most `n` qubits, read as a matrix on `n` qubits. -/
theorem getMatrix_total {σ : Safe.Sys R W} {h : Heap ℝ} {q : Cost} (ha : Acc env σ h q) {m n : Nat} {M : Mat ℝ}
    (hm : h.ms[m]? = some M) (hn : M.k ≤ n) (hk : n ≤ 30) :
    ∃ a : Arr2 W, a.dim = 2 ^ n ∧
      (∀ i < 2 ^ n, ∀ j < 2 ^ n, ∃ c, a.cell i j = some c ∧
        ‖val c - toC (M.at n i j)‖ ≤ 100 * NumW.eps W * ((n : ℝ) + 1) ^ 2 * ((q.mat m).err + 1)) ∧
      ∀ mt fk, Api.Total (prog env mt fk σ.d (.getMatrix m n)) σ.st (fun s' r => r.2 = .mat a ∧ Acc env ⟨r.1, s'⟩ h q) := by
  obtain ⟨x, e, g4, g5, g6⟩ := ha.near.ms.get hm
  have hx : q.mat m = x := getD_of' g4
  rw [hx]
  have e0 := eps_nn (W := W)
  obtain ⟨a, h1, h2, h3⟩ := getMatrix_num ha.inv hk (g6.ok.lv.mono hn) (g6.wt.trans (by norm_num))
  refine ⟨a, h2, fun i hi j hj => ?_, fun mt fk => ?_⟩
  · obtain ⟨c, h4, h5⟩ := h3 i hi j hj
    refine ⟨c, h4, ?_⟩
    have h6 : ‖md σ.st n e i j - toC (M.at n i j)‖ ≤ D W M.k * x.err := by
      rw [md_up g6.ok.lv hn hi hj]
      unfold Spec.Mat.at
      have hp : 0 < 2 ^ M.k := Nat.two_pow_pos _
      by_cases hd : i / 2 ^ M.k = j / 2 ^ M.k
      · rw [if_pos hd, if_pos hd]
        refine le_trans ?_ (g6.err (i % 2 ^ M.k) (Nat.mod_lt _ hp))
        rw [bsum_eq]
        exact Finset.single_le_sum (f := fun j => ‖md σ.st M.k e (i % 2 ^ M.k) j - toC (M.F (i % 2 ^ M.k) j)‖)
          (fun _ _ => norm_nonneg _) (mem_range.2 (Nat.mod_lt j hp))
      · rw [if_neg hd, if_neg hd, toC_zero, sub_zero, norm_zero]
        unfold D
        positivity
    have h7 : D W M.k * x.err ≤ 100 * NumW.eps W * ((n : ℝ) + 1) ^ 2 * x.err := by
      unfold D
      have : (M.k : ℝ) ≤ n := by exact_mod_cast hn
      gcongr
    have h8 : val c - toC (M.at n i j) = (val c - md σ.st n e i j) + (md σ.st n e i j - toC (M.at n i j)) := by ring
    rw [h8]
    refine (norm_add_le _ _).trans ?_
    have h9 : 5 * ((n : ℝ) + 1) * NumW.eps W ≤ 100 * NumW.eps W * ((n : ℝ) + 1) ^ 2 := by
      have hn0 : (0 : ℝ) ≤ n := Nat.cast_nonneg n
      nlinarith [mul_nonneg e0 hn0, mul_nonneg (mul_nonneg e0 hn0) hn0]
    linarith
  · simp only [prog, handle_bind g5]
    refine total_peek (b := Out.mat a) (by simp [obs, h1]) (total_ret ?_)
    exact ⟨rfl, ha.inv, ⟨ha.near.vs, ha.near.ms⟩, ha.memo⟩

/-- `measureAll`, with or without collapse. -/
theorem measureAll_total {σ : Safe.Sys R W} {h : Heap ℝ} {q : Cost} (ha : Acc env σ h q) {v : Nat} {V : Vec ℝ}
    (hv : h.vs[v]? = some V) (hb : errB W V q v < 1) :
    ∃ lo hi' : Nat → Nat → ℝ, (∀ x u, 0 ≤ lo x u ∧ lo x u ≤ hi' x u ∧ hi' x u ≤ 1) ∧
      ∑ x ∈ range (2 ^ V.k), ∏ u ∈ range V.k, (hi' x u - lo x u) = 1 ∧
      ∑ x ∈ range (2 ^ V.k), |∏ u ∈ range V.k, (hi' x u - lo x u) - (V.f x).mag2| ≤ 4 * errB W V q v + 256 * V.k ^ 2 * μ ∧
      ∀ draw : Nat → R, (∀ u < V.k, 0 ≤ ρ (draw u) ∧ ρ (draw u) < 1) →
        ∃ x < 2 ^ V.k, (∀ y < 2 ^ V.k, y = x ↔ ∀ u < V.k, lo y u ≤ ρ (draw u) ∧ ρ (draw u) < hi' y u) ∧
          ∀ mt fk, Api.Total (prog env mt fk σ.d (.measureAll v false draw)) σ.st
              (fun s' r => r.2 = .str (Spec.bits V.k x) ∧ Acc env ⟨r.1, s'⟩ h q) ∧
            Api.Total (prog env mt fk σ.d (.measureAll v true draw)) σ.st
              (fun s' r => r.2 = .str (Spec.bits V.k x) ∧
                Acc env ⟨r.1, s'⟩ ⟨h.vs.set v (Spec.basis V.k x), h.ms⟩ { q with vs := q.vs.set v 1 }) := by
  obtain ⟨cv, e, g4, g5, g6⟩ := ha.near.vs.get hv
  have hE : errB W V q v = kap W V.k * cv := by unfold errB; rw [getD_of g4]
  rw [hE] at hb ⊢
  obtain ⟨lo, hi', m', h1, h2, h3, h4, h5⟩ := sampleAll_num ha.inv ha.memo g6.le (g6.ptr hb)
  refine ⟨lo, hi', h2, by rw [← bsum_eq]; exact h3, ?_, fun draw hd => ?_⟩
  · have h6 := born_near g6 hb
    rw [bsum_eq] at h4 h6
    have : ∑ x ∈ range (2 ^ V.k), |∏ u ∈ range V.k, (hi' x u - lo x u) - (V.f x).mag2| ≤
        ∑ x ∈ range (2 ^ V.k), (|∏ u ∈ range V.k, (hi' x u - lo x u) - tau σ.st.vt.mem V.k e.n x| + |tau σ.st.vt.mem V.k e.n x - (V.f x).mag2|) :=
      Finset.sum_le_sum fun x _ => abs_sub_le _ _ _
    rw [Finset.sum_add_distrib] at this
    linarith
  · obtain ⟨x, hx, hx1, _, hx2⟩ := h5 draw hd
    refine ⟨x, hx, hx2, fun mt fk => ⟨?_, ?_⟩⟩
    · simp only [prog, handle_bind g5]
      refine total_peek (f := fun s => Fl.sampleAll s e σ.d.memo draw) hx1 (total_ret ?_)
      refine ⟨by dsimp only; rw [bitList_bits], ha.inv, ⟨?_, ha.near.ms⟩, h1⟩
      show F3 (VNear env σ.st) h.vs q.vs (σ.d.vs.set v e)
      rw [set_same g5]
      exact ha.near.vs
    · simp only [prog, handle_bind g5]
      refine total_peek (f := fun s => Fl.sampleAll s e σ.d.memo draw) hx1 ?_
      refine total_mono (Api.Total.of_sat (Wd := nworld env) (Q := fun s' (r : Data R W × Out R W) => r.2 = .str (Spec.bits V.k x) ∧
        Grow env σ.st s' ∧ r.1.memo = m' ∧ r.1.ms = σ.d.ms ∧ ∃ e', r.1.vs = σ.d.vs.set v e' ∧ VNear env s' (Spec.basis V.k x) 1 e') ?_ ha.inv) ?_
      · refine Sat.bind (Q := fun s' (r : List Bool × Edge W × Memo R) => r.1 = Spec.bits V.k x ∧ Grow env σ.st s' ∧
            VNear env s' (Spec.basis V.k x) 1 r.2.1 ∧ r.2.2 = m') ?_ ?_
        · show Sat (nworld env) (Fl.collapseLoop env (bitList V.k x) 0 oneE >>= fun e' => pure ((bitList V.k x).reverse, e', m')) σ.st _
          refine Sat.bind (collapseAll_near g6.pos g6.le hx ha.inv) fun s1 e1 hi1 he1 hv1 => Sat.pure fun s2 hi2 he2 => ?_
          exact ⟨rfl, he1.trans he2, hv1.ext hi1 he2, rfl⟩
        · rintro s1 ⟨l, e1, m1⟩ hi1 he1 ⟨a1, a2, a3, a4⟩
          refine Sat.pure fun s2 hi2 he2 => ⟨by dsimp only at a1 ⊢; rw [a1], a2.trans he2, a4, rfl, e1, rfl, a3.ext hi1 he2⟩
      · rintro s' ⟨d', o⟩ ⟨hi2, a1, a2, a3, a4, e', a5, a6⟩
        refine ⟨a1, hi2, ⟨?_, ?_⟩, ?_⟩
        · have := (ha.near.ext ha.inv a2).vs.set v a6
          dsimp only at a5 this ⊢
          rw [a5]; exact this
        · have := (ha.near.ext ha.inv a2).ms
          dsimp only at a4 this ⊢
          rw [a4]; exact this
        · dsimp only at a3 ⊢
          rw [a3]; exact h1.ext ha.inv.base a2

/-- `measureOne`. -/
theorem measureOne_total {σ : Safe.Sys R W} {h : Heap ℝ} {q : Cost} (ha : Acc env σ h q) {v i : Nat} {V : Vec ℝ}
    (hv : h.vs[v]? = some V) (hb : errB W V q v ≤ 1 / 8) (hi : i < V.k) (hu : 2 ^ (V.k + 10) * μ ≤ 1) :
    ∃ θ : R, |ρ θ - V.marg i false| ≤ 4 * errB W V q v + 2 ^ (V.k + 10) * μ ∧
      ∀ mt fk (tol : R), Api.Total (prog env mt fk σ.d (.measureOne v i tol)) σ.st
        (fun s' r => (r.2 = .num θ ∨ r.2 = .throw ∧ ρ tol ≤ 4 * errB W V q v + 2 ^ (V.k + 10) * μ) ∧ Acc env ⟨r.1, s'⟩ h q) := by
  obtain ⟨cv, e, g4, g5, g6⟩ := ha.near.vs.get hv
  have hE : errB W V q v = kap W V.k * cv := by unfold errB; rw [getD_of g4]
  rw [hE] at hb ⊢
  obtain ⟨x, m', h1, h2, h3, h4, h5, h6⟩ := detProbs_near ha.inv ha.memo g6 rfl hb hi hu
  refine ⟨_, h6, fun mt fk tol => ?_⟩
  simp only [prog, handle_bind g5]
  have hacc : ∀ (d' : Data R W), d'.memo = m' → d'.vs = σ.d.vs → d'.ms = σ.d.ms → Acc env ⟨d', σ.st⟩ h q := by
    intro d' e1 e2 e3
    exact ⟨ha.inv, ⟨by rw [e2]; exact ha.near.vs, by rw [e3]; exact ha.near.ms⟩, by dsimp only; rw [e1]; exact h2⟩
  by_cases hf : ROps.far W (ROps.add W (x false) (x true)) tol = true
  · refine total_peek (b := (none, m')) (by unfold Fl.measureOne; simp only [h1]; rw [if_pos hf]) (total_ret ⟨.inr ⟨rfl, ?_⟩, hacc _ rfl rfl rfl⟩)
    have := NumR.far_imp _ _ hf
    have hμ := NumR.u_nn (R := R) (W := W)
    have hμ1 := u_8 R W
    have hη : η ≤ μ := by
      have := eta_big R W (y := 1) ((tiny (n := 0) (by norm_num)).trans (by norm_num))
      linarith
    have hp : μ ≤ 2 ^ V.k * μ := le_mul_of_one_le_left hμ (one_le_pow₀ (by norm_num))
    have e9 : (2 : ℝ) ^ (V.k + 9) * μ = 512 * (2 ^ V.k * μ) := by rw [pow_add]; ring
    have e10 : (2 : ℝ) ^ (V.k + 10) * μ = 1024 * (2 ^ V.k * μ) := by rw [pow_add]; ring
    rw [e9] at h5
    rw [e10]
    have hE0 : 0 ≤ kap W V.k * cv := mul_nonneg (kap_nn _) (Nat.cast_nonneg _)
    have h7 : |ρ (ROps.add W (x false) (x true)) - 1| * (1 + μ) ≤ (3 * (kap W V.k * cv) + 512 * (2 ^ V.k * μ)) * (1 + 1 / 8) :=
      mul_le_mul h5 (by linarith) (by linarith) (by linarith)
    linarith
  · refine total_peek (b := (some _, m')) (by unfold Fl.measureOne; simp only [h1]; rw [if_neg hf]) (total_ret ⟨.inl rfl, hacc _ rfl rfl rfl⟩)

/-- The exact state after a collapse on qubit `i` with outcome `b` has error bound at most `kap * c'`. -/
def Renorm (R : Type) {W : Type} [WOps W] [ROps R W] [RoundW W] [NumW W] [NumR R W] (V : Vec ℝ) (q : Cost) (v i : Nat) (b : Bool) (c' : Nat) : Prop :=
  errB W V q v + kap W V.k ≤ √(V.marg i b) / 8 ∧
    3 * errB W V q v + 2 * kap W V.k + 2 ^ (V.k + 8) * NumR.u R W ≤ √(V.marg i b) * (kap W V.k * c')

theorem kap_ge (R : Type) {W : Type} [WOps W] [ROps R W] [RoundW W] [NumW W] [NumR R W] (k : Nat) : 1100 / 2 ^ 100 ≤ kap W k := by
  have h1 : 1 / 2 ^ 100 ≤ NumR.u R W := NumR.u_ge (R := R) (W := W)
  have h2 : NumR.u R W ≤ NumW.eps W := NumR.u_eps (R := R) (W := W)
  have e0 : 0 ≤ NumW.eps W := eps_nn (W := W)
  unfold kap
  have h3 : (1 : ℝ) ≤ √(2 ^ k) := Real.one_le_sqrt.2 (one_le_pow₀ (by norm_num))
  have hk0 : (1 : ℝ) ≤ ((k : ℝ) + 1) ^ 2 := one_le_pow₀ (by have : (0 : ℝ) ≤ k := Nat.cast_nonneg _; linarith)
  calc (1100 / 2 ^ 100 : ℝ) = 1 * (1100 * (1 / 2 ^ 100) * 1) := by ring
    _ ≤ √(2 ^ k) * (1100 * NumW.eps W * ((k : ℝ) + 1) ^ 2) := by
      refine mul_le_mul h3 (mul_le_mul (by linarith) hk0 (by norm_num) (by positivity)) (by positivity) (Real.sqrt_nonneg _)

/-- `measureOneCollapsing`. -/
theorem measureOneCollapsing_total {σ : Safe.Sys R W} {h : Heap ℝ} {q : Cost} (ha : Acc env σ h q) {v i : Nat} {V : Vec ℝ}
    (hv : h.vs[v]? = some V) (hb : errB W V q v ≤ 1 / 8) (hi : i < V.k) (hu : 2 ^ (V.k + 12) * μ ≤ 1) :
    ∃ θ : R, |ρ θ - V.marg i false| ≤ 4 * errB W V q v + 2 ^ (V.k + 10) * μ ∧
      ∀ mt fk (tol draw : R), Api.Total (prog env mt fk σ.d (.measureOneCollapsing v i tol draw)) σ.st
        (fun s' r => (r.2 = .throw ∧ ρ tol ≤ 4 * errB W V q v + 2 ^ (V.k + 10) * μ ∧ Acc env ⟨r.1, s'⟩ h q) ∨
          (r.2 = .char (!decide (ρ draw < ρ θ)) ∧ ∀ c', Renorm (W := W) R V q v i (!decide (ρ draw < ρ θ)) c' →
            Acc env ⟨r.1, s'⟩ ⟨h.vs.set v (V.collapse Real.sqrt i (!decide (ρ draw < ρ θ))), h.ms⟩ { q with vs := q.vs.set v c' })) := by
  obtain ⟨cv, e, g4, g5, g6⟩ := ha.near.vs.get hv
  have hE : errB W V q v = kap W V.k * cv := by unfold errB; rw [getD_of g4]
  have hμ := NumR.u_nn (R := R) (W := W)
  have e12 : (2 : ℝ) ^ (V.k + 12) * μ = 4096 * (2 ^ V.k * μ) := by rw [pow_add]; ring
  have e10 : (2 : ℝ) ^ (V.k + 10) * μ = 1024 * (2 ^ V.k * μ) := by rw [pow_add]; ring
  have hp0 : 0 ≤ 2 ^ V.k * μ := by positivity
  have hb' := hb
  rw [hE] at hb'
  obtain ⟨x, m', h1, h2, h3, h4, h5, h6⟩ := detProbs_near ha.inv ha.memo g6 rfl hb' hi (by rw [e10]; rw [e12] at hu; linarith)
  rw [← hE] at h5 h6
  refine ⟨_, h6, fun mt fk tol draw => ?_⟩
  have hptr := g6.ptr (by linarith)
  simp only [prog, handle_bind g5]
  have hv1 : ((V.k : Int) - 1 + 1).toNat = V.k := by omega
  have hpk : (match Fl.detProbs σ.st e i σ.d.memo with
      | .error er => .error er
      | .ok r => match evar σ.st.vt.mem e.n with
        | .error er => .error er
        | .ok v => .ok (r, v)) = (.ok ((x false, x true, m'), (V.k : Int) - 1) : Except Err ((R × R × Memo R) × Int)) := by
    simp only [h1, hptr.evar]
  refine total_peek (f := fun s => match Fl.detProbs s e i σ.d.memo with
      | .error er => .error er
      | .ok r => match evar s.vt.mem e.n with
        | .error er => .error er
        | .ok v => .ok (r, v)) hpk ?_
  dsimp only [Prog.bind']
  rw [hv1, lt_rv]
  generalize hθ : ROps.div W (x false) (ROps.add W (x false) (x true)) = θ at *
  generalize hbb : (!decide (ρ draw < ρ θ)) = b
  by_cases hf : ROps.far W (ROps.add W (x false) (x true)) tol = true
  · rw [if_pos hf]
    refine total_ret (.inl ⟨rfl, ?_, ha.inv, ⟨ha.near.vs, ha.near.ms⟩, h2⟩)
    have := NumR.far_imp _ _ hf
    have hμ1 := u_8 R W
    have hη : η ≤ μ := by
      have := eta_big R W (y := 1) ((tiny (n := 0) (by norm_num)).trans (by norm_num))
      linarith
    have hp : μ ≤ 2 ^ V.k * μ := le_mul_of_one_le_left hμ (one_le_pow₀ (by norm_num))
    have e9 : (2 : ℝ) ^ (V.k + 9) * μ = 512 * (2 ^ V.k * μ) := by rw [pow_add]; ring
    rw [e9] at h5
    rw [e10]
    have hE0 : 0 ≤ errB W V q v := by rw [hE]; exact mul_nonneg (kap_nn _) (Nat.cast_nonneg _)
    have h7 : |ρ (ROps.add W (x false) (x true)) - 1| * (1 + μ) ≤ (3 * errB W V q v + 512 * (2 ^ V.k * μ)) * (1 + 1 / 8) :=
      mul_le_mul h5 (by linarith) (by linarith) (by linarith)
    linarith
  · rw [if_neg hf]
    have hnf : (if b = true then x true else x false) = x b := by cases b <;> rfl
    rw [hnf]
    refine total_mono (Api.Total.of_sat (Wd := nworld env) (Q := fun s' (r : Data R W × Out R W) => r.2 = .char b ∧
      Grow env σ.st s' ∧ r.1.memo = m' ∧ r.1.ms = σ.d.ms ∧ ∃ y, r.1.vs = σ.d.vs.set v ⟨WOps.mul y.w (ROps.ofReal (ROps.sqrt W (ROps.div W (ROps.one W) (x b)))), y.n⟩ ∧
        VLv env s' V.k y ∧ n2 V.k (fun j => vd s' V.k y j - proj i b (vd σ.st V.k e) j) ≤ kap W V.k) ?_ ha.inv) ?_
    · refine Sat.bind (Sat.mono (projMul_near (mt := mt) ha.inv g6 (by linarith) hi b (fun x' => (some (b,
        (⟨WOps.mul x'.w (ROps.ofReal (ROps.sqrt W (ROps.div W (ROps.one W) (x b)))), x'.n⟩ : Edge W)), m')))
        (fun s1 r hi1 he1 hr => (⟨he1, hr⟩ : Grow env σ.st s1 ∧ _))) ?_
      rintro s1 r hi1 he1 ⟨a0, y, rfl, a1, a2⟩
      refine Sat.pure fun s2 hi2 he2 => ⟨rfl, a0.trans he2, rfl, rfl, y, rfl, a1.ext he2, ?_⟩
      rw [n2_congr (g := fun j => vd s1 V.k y j - proj i b (vd σ.st V.k e) j) fun j _ => by rw [vd_ext hi1.base he2 a1]]
      exact a2
    · rintro s' ⟨d', o⟩ ⟨hi2, a1, a2, a3, a4, y, a5, a6, a7⟩
      refine .inr ⟨a1, fun c' hc => ?_⟩
      obtain ⟨c1, c2⟩ := hc
      rw [hE] at c1 c2
      have hkap := kap_ge R (W := W) V.k
      have hkap0 := kap_nn (W := W) V.k
      have hE0 : 0 ≤ kap W V.k * cv := mul_nonneg hkap0 (Nat.cast_nonneg _)
      have hsP : 8 * (1100 / 2 ^ 100) ≤ √(V.marg i b) := by linarith
      have hP0 : 0 < V.marg i b := Real.sqrt_pos.1 (lt_of_lt_of_le (by norm_num) hsP)
      -- the computed mass
      have hng : n2 V.k (proj i b fun j => toC (V.f j)) = √(V.marg i b) := by rw [proj_mass, ← marg_mass]
      have hnf' : n2 V.k (proj i b (vd σ.st V.k e)) = √(mass V.k (vd σ.st V.k e) i b) := proj_mass _ _ _ _
      have hk2 := n2_le_add V.k (proj i b fun j => toC (V.f j)) (proj i b (vd σ.st V.k e))
      rw [n2_sub_comm V.k (proj i b fun j => toC (V.f j)), n2_congr fun j _ => proj_sub i b (vd σ.st V.k e) (fun j => toC (V.f j)) j, hng, hnf'] at hk2
      have hk3 := (proj_n2 V.k i b (fun j => vd σ.st V.k e j - toC (V.f j))).trans g6.err
      have hk4 := n2_le_add V.k (vd σ.st V.k e) (fun j => toC (V.f j))
      rw [g6.unit] at hk4
      have hk5 := g6.err
      have hM0 := mass_nn V.k (vd σ.st V.k e) i b
      have hM4 : mass V.k (vd σ.st V.k e) i b ≤ 4 := by
        have := mass_sum V.k (vd σ.st V.k e) i
        have m0 := mass_nn V.k (vd σ.st V.k e) i false
        have m1 := mass_nn V.k (vd σ.st V.k e) i true
        have hn0 := n2_nn V.k (vd σ.st V.k e)
        have : n2 V.k (vd σ.st V.k e) ^ 2 ≤ 4 := by nlinarith
        cases b <;> linarith
      have hM : 1 / 2 ^ 200 ≤ mass V.k (vd σ.st V.k e) i b := by
        have h7 : 1 / 2 ^ 100 ≤ √(mass V.k (vd σ.st V.k e) i b) := by linarith
        have h8 := pow_le_pow_left₀ (by positivity) h7 2
        rw [Real.sq_sqrt hM0] at h8
        refine le_trans (le_of_eq ?_) h8
        norm_num
      have hnn : 2 * ((16 * 2 ^ V.k + 3 : Nat) : ℝ) * nu R W ≤ 152 * (2 ^ V.k * μ) := by
        have h7 : μ ≤ 2 ^ V.k * μ := le_mul_of_one_le_left hμ (one_le_pow₀ (by norm_num))
        unfold nu
        push_cast
        nlinarith
      rw [e12] at hu
      have hrs := rescale_num (h3 b) hM hM4 (by linarith) (h4 b)
      have hcol := collapse_near hi2 g6 rfl c1 hP0 a6 a7 (by have := nu_nn R W; positivity) (by linarith) hrs (c' := c') (by
        have e8 : (2 : ℝ) ^ (V.k + 8) * μ = 256 * (2 ^ V.k * μ) := by rw [pow_add]; ring
        rw [e8] at c2
        linarith)
      refine ⟨hi2, ⟨?_, ?_⟩, ?_⟩
      · have := (ha.near.ext ha.inv a2).vs.set v hcol
        dsimp only at a5 this ⊢
        rw [a5]; exact this
      · have := (ha.near.ext ha.inv a2).ms
        dsimp only at a4 this ⊢
        rw [a4]; exact this
      · dsimp only at a3 ⊢
        rw [a3]; exact h2.ext ha.inv.base a2

/-! ## Histories with measurements -/

/-- What a measurement call that returned `o` does to the exact states, and to the error counts.  Reading calls change
nothing; `measureAll` with collapse leaves the basis state of the string it returned; `measureOneCollapsing` leaves the
renormalised projection onto the outcome it returned.  The premises are the error budget of the call. -/
inductive Meas (h : Heap ℝ) (q : Cost) : Safe.Call R W → Out R W → Heap ℝ → Cost → Prop
  | probabilities {v V} (o : Out R W) (hv : h.vs[v]? = some V) (hk : V.k ≤ 30) (hb : errB W V q v < 1) :
      Meas h q (.probabilities v) o h q
  | getMatrix {m n M} (o : Out R W) (hm : h.ms[m]? = some M) (hn : M.k ≤ n) (hk : n ≤ 30) : Meas h q (.getMatrix m n) o h q
  | sample {v V} {draw : Nat → R} (o : Out R W) (hv : h.vs[v]? = some V) (hb : errB W V q v < 1)
      (hd : ∀ u < V.k, 0 ≤ NumR.rv W (draw u) ∧ NumR.rv W (draw u) < 1) : Meas h q (.measureAll v false draw) o h q
  | measureAll {v V x} {draw : Nat → R} (hv : h.vs[v]? = some V) (hb : errB W V q v < 1) (hx : x < 2 ^ V.k)
      (hd : ∀ u < V.k, 0 ≤ NumR.rv W (draw u) ∧ NumR.rv W (draw u) < 1) :
      Meas h q (.measureAll v true draw) (.str (Spec.bits V.k x)) ⟨h.vs.set v (Spec.basis V.k x), h.ms⟩ { q with vs := q.vs.set v 1 }
  | measureOne {v i V} {tol : R} (o : Out R W) (hv : h.vs[v]? = some V) (hb : errB W V q v ≤ 1 / 8) (hi : i < V.k)
      (hu : 2 ^ (V.k + 10) * NumR.u R W ≤ 1) : Meas h q (.measureOne v i tol) o h q
  | throw {v i V} {tol draw : R} (hv : h.vs[v]? = some V) (hb : errB W V q v ≤ 1 / 8) (hi : i < V.k)
      (hu : 2 ^ (V.k + 12) * NumR.u R W ≤ 1) : Meas h q (.measureOneCollapsing v i tol draw) .throw h q
  | collapse {v i V b c'} {tol draw : R} (hv : h.vs[v]? = some V) (hb : errB W V q v ≤ 1 / 8) (hi : i < V.k)
      (hu : 2 ^ (V.k + 12) * NumR.u R W ≤ 1) (hc : Renorm (W := W) R V q v i b c') :
      Meas h q (.measureOneCollapsing v i tol draw) (.char b) ⟨h.vs.set v (V.collapse Real.sqrt i b), h.ms⟩ { q with vs := q.vs.set v c' }

/-- Program start, then calls and measurements in any schedule; the specification makes the exact calls and collapses as the
returned outcomes say. -/
inductive MRun (env : Env W) (mt : Bool) (thr thrM : Nat) : Heap ℝ → Cost → Safe.Sys R W → Prop
  | init : MRun env mt thr thrM ⟨[], []⟩ ⟨[], []⟩ (Safe.Sys.init thr thrM)
  | call {h q σ c c' h' o o' σ'} : MRun env mt thr thrM h q σ → Rounded c c' → Spec.pre NQUBITS h c' →
      Budget h q c → Spec.step Real.sqrt h c' = some (h', o') → Safe.Exec env mt σ c o σ' → MRun env mt thr thrM h' (q.after c) σ'
  | meas {h q σ c h' q' o σ'} : MRun env mt thr thrM h q σ → Meas h q c o h' q' → Safe.Exec env mt σ c o σ' →
      MRun env mt thr thrM h' q' σ'

theorem Run.meas {mt : Bool} {thr thrM : Nat} {cs h q} {σ : Safe.Sys R W} (hR : Run env mt thr thrM cs h q σ) :
    MRun env mt thr thrM h q σ := by
  induction hR with
  | init => exact .init
  | call _ hr hp hb hst he ih => exact .call ih hr hp hb hst he

theorem exec_steps {mt : Bool} {σ σ' : Safe.Sys R W} {c : Safe.Call R W} {o : Out R W} (hc : c.seq = false) (he : Safe.Exec env mt σ c o σ') :
    ∃ fk, Steps (Safe.prog env mt fk σ.d c) σ.st (Prog.ret (σ'.d, o)) σ'.st := by
  cases he with
  | conc h1 h2 => exact ⟨_, h2⟩
  | seq h1 h2 => rw [hc] at h1; cases h1

/-- The invariant along a history. -/
theorem MRun.acc {mt : Bool} {thr thrM : Nat} {h q} {σ : Safe.Sys R W} (hR : MRun env mt thr thrM h q σ) : Acc env σ h q := by
  induction hR with
  | init => exact ⟨init_ninv, ⟨.nil, .nil⟩, MemoNum.empty _⟩
  | call _ hr hp hb hst he ih =>
    obtain ⟨h1, h2, _, h3⟩ := exec_num ih.inv ih.near hr hp hb hst he
    exact ⟨h1, h2, ih.kept h3⟩
  | meas _ hm he ih =>
    cases hm with
    | probabilities _ hv hk hb =>
      obtain ⟨fk, hs⟩ := exec_steps rfl he
      obtain ⟨l, _, _, h3⟩ := probabilities_total ih hv hk hb
      exact ((h3 _ fk).2 _ _ hs).2
    | getMatrix _ hm hn hk =>
      obtain ⟨fk, hs⟩ := exec_steps rfl he
      obtain ⟨l, _, _, h3⟩ := getMatrix_total ih hm hn hk
      exact ((h3 _ fk).2 _ _ hs).2
    | sample _ hv hb hd =>
      obtain ⟨fk, hs⟩ := exec_steps rfl he
      obtain ⟨_, _, _, _, _, h3⟩ := measureAll_total (R := R) ih hv hb
      obtain ⟨x, hx, _, h4⟩ := h3 _ hd
      exact (((h4 _ fk).1).2 _ _ hs).2
    | @measureAll v V x draw hv hb hx hd =>
      obtain ⟨fk, hs⟩ := exec_steps rfl he
      obtain ⟨_, _, _, _, _, h3⟩ := measureAll_total (R := R) ih hv hb
      obtain ⟨y, hy, _, h4⟩ := h3 _ hd
      obtain ⟨h5, h6⟩ := ((h4 _ fk).2).2 _ _ hs
      have h5 : Out.str (Spec.bits V.k x) = (Out.str (Spec.bits V.k y) : Out R W) := h5
      injection h5 with h5
      rw [Props.bits_inj hx hy h5]
      exact h6
    | measureOne _ hv hb hi hu =>
      obtain ⟨fk, hs⟩ := exec_steps rfl he
      obtain ⟨_, _, h3⟩ := measureOne_total ih hv hb hi hu
      exact ((h3 _ fk _).2 _ _ hs).2
    | throw hv hb hi hu =>
      obtain ⟨fk, hs⟩ := exec_steps rfl he
      obtain ⟨_, _, h3⟩ := measureOneCollapsing_total ih hv hb hi hu
      rcases (h3 _ fk _ _).2 _ _ hs with ⟨_, _, h4⟩ | ⟨h4, _⟩
      · exact h4
      · cases h4
    | @collapse v i V b c' tol draw hv hb hi hu hc =>
      obtain ⟨fk, hs⟩ := exec_steps rfl he
      obtain ⟨θ, _, h3⟩ := measureOneCollapsing_total ih hv hb hi hu
      rcases (h3 _ fk _ _).2 _ _ hs with ⟨h4, _⟩ | ⟨h4, h5⟩
      · cases h4
      · have h4 : Out.char b = (Out.char (!decide (NumR.rv W draw < NumR.rv W θ)) : Out R W) := h4
        injection h4 with h4
        rw [← h4] at h5
        exact h5 c' hc

end meas
end QDD.Num
