import Verif.Api.Refine
/-!
# Every call refines its specification
-/

set_option linter.unusedSectionVars false
set_option linter.unusedVariables false
set_option linter.unusedSimpArgs false

namespace QDD.Api
open ExactW Prog Spec

variable {K : Type} [Field K] [LinearOrder K] [IsStrictOrderedRing K]

/-- The postcondition of a call. -/
def Post (env : Env (C K)) (h' : Heap K) (o' : Obs K) (s' : St (C K)) (r : Data K × Obs K) : Prop :=
  r.2 = o' ∧ RelD env s' r.1 h'

theorem Post.newV {env : Env (C K)} {s : St (C K)} {d : Data K} {h : Heap K} {p : P (C K) (Edge (C K))} {v : Vec K}
    (hi : Inv env s) (hr : RelD env s d h)
    (hp : Sat (world env) p s (fun s' e => VRel env s' v e)) :
    Sat (world env) (do return (d.addV (← p), (.unit : Obs K))) s (Post env (h.addV v) .unit) := by
  refine Sat.bind hp fun s1 e hi1 he1 h1 => ?_
  exact Sat.pure fun s2 hi2 he2 => ⟨rfl, ((hr.ext hi he1).addV h1).ext hi1 he2⟩

theorem Post.newM {env : Env (C K)} {s : St (C K)} {d : Data K} {h : Heap K} {p : P (C K) (Edge (C K))} {m : Mat K}
    (hi : Inv env s) (hr : RelD env s d h)
    (hp : Sat (world env) p s (fun s' e => MRel env s' m e)) :
    Sat (world env) (do return (d.addM (← p), (.unit : Obs K))) s (Post env (h.addM m) .unit) := by
  refine Sat.bind hp fun s1 e hi1 he1 h1 => ?_
  exact Sat.pure fun s2 hi2 he2 => ⟨rfl, ((hr.ext hi he1).addM h1).ext hi1 he2⟩

theorem Post.handle {env : Env (C K)} {l : List (Edge (C K))} {i : Nat} {e : Edge (C K)} (h : l[i]? = some e)
    {s : St (C K)} {α : Type} {k : Edge (C K) → P (C K) α} {Q}
    (hk : Sat (world env) (k e) s Q) : Sat (world env) (Api.handle l i >>= k) s Q := by
  refine Sat.bind (handle_sat h) fun s1 x _ he1 hx => ?_
  subst hx
  exact hk.ext he1

theorem mv_sat {env : Env (C K)} {s : St (C K)} (hi : Inv env s) (mt : Bool) {m : Mat K} {v : Vec K} {em ev : Edge (C K)}
    (hm : MRel env s m em) (hv : VRel env s v ev) (hk : m.k ≤ v.k) :
    Sat (world env) (mvMul env mt em ev) s (fun s' e => VRel env s' (m.apply v) e) := by
  refine Sat.mono (mvMul_sat mt hi (hm.1.mono hk) hv.2.1) fun s' e hi' he' hr => ?_
  refine VRel.of_rep hv.1 hr fun i hi' => ?_
  unfold mvden
  rw [bsum_eq]
  refine Finset.sum_congr rfl fun j hj => ?_
  have hj := Finset.mem_range.1 hj
  rw [hm.at hk hi' hj, hv.2.2 j hj]

theorem vadd_sat {env : Env (C K)} {s : St (C K)} (hi : Inv env s) (fk : Nat → Bool) {a b : Vec K} {ea eb : Edge (C K)}
    (ha : VRel env s a ea) (hb : VRel env s b eb) (hk : a.k = b.k) :
    Sat (world env) (vvAdd env fk ea eb) s (fun s' e => VRel env s' (a.add b) e) := by
  have hb' := hb.rep
  rw [← hk] at hb'
  refine Sat.mono (vvAdd_sat fk hi ha.rep hb') fun s' e hi' he' hr => ?_
  refine VRel.of_rep ha.1 hr fun i hi' => ?_
  rw [ha.2.2 i hi']
  have := hb.2.2 i (hk ▸ hi')
  rw [← hk] at this
  rw [this]

theorem vkron_sat {env : Env (C K)} {s : St (C K)} (hi : Inv env s) {a b : Vec K} {ea eb : Edge (C K)}
    (ha : VRel env s a ea) (hb : VRel env s b eb) (hna : a.Nonzero) (hnb : b.Nonzero) (hk : a.k + b.k ≤ NQUBITS) :
    Sat (world env) (vvKron env ea eb) s (fun s' e => VRel env s' (a.kron b) e) := by
  refine Sat.mono (vvKron_sat hi ha.1 hb.1 hk (ha.nonzero hna).1 (hb.nonzero hnb).1) fun s' e hi' he' hr => ?_
  refine VRel.of_rep (by have := ha.1; omega) hr fun i hi' => ?_
  rw [Nat.shiftRight_eq_div_pow, ha.2.2 _ (by rw [Nat.div_lt_iff_lt_mul (Nat.two_pow_pos _), ← pow_add]; exact hi'),
    ← vden_low (mod_lowEq b.k i), hb.2.2 _ (Nat.mod_lt _ (Nat.two_pow_pos _))]

theorem mmul_sat {env : Env (C K)} {s : St (C K)} (hi : Inv env s) {a b : Mat K} {ea eb : Edge (C K)}
    (ha : MRel env s a ea) (hb : MRel env s b eb) :
    Sat (world env) (mmMul env ea eb) s (fun s' e => MRel env s' (a.mul b) e) := by
  refine Sat.mono (mmMul_sat hi ha.1.regM hb.1.regM) fun s' e hi' he' hr => ?_
  obtain ⟨h1, h2⟩ := hr (max a.k b.k) ((ha.1.mono (le_max_left _ _)).ext he') ((hb.1.mono (le_max_right _ _)).ext he')
  refine MRel.of_rep ⟨h1, h2⟩ fun i hi'' j hj => ?_
  rw [bsum_eq]
  refine Finset.sum_congr rfl fun x hx => ?_
  have hx := Finset.mem_range.1 hx
  rw [(ha.ext hi he').at (le_max_left _ _) hi'' hx, (hb.ext hi he').at (le_max_right _ _) hx hj]

theorem madd_sat {env : Env (C K)} {s : St (C K)} (hi : Inv env s) {a b : Mat K} {ea eb : Edge (C K)}
    (ha : MRel env s a ea) (hb : MRel env s b eb) :
    Sat (world env) (mmAdd env ea eb) s (fun s' e => MRel env s' (a.add b) e) := by
  refine Sat.mono (mmAdd_sat hi ha.1.regM hb.1.regM) fun s' e hi' he' hr => ?_
  obtain ⟨h1, h2⟩ := hr (max a.k b.k) ((ha.1.mono (le_max_left _ _)).ext he') ((hb.1.mono (le_max_right _ _)).ext he')
  refine MRel.of_rep ⟨h1, h2⟩ fun i hi'' j hj => ?_
  rw [(ha.ext hi he').at (le_max_left _ _) hi'' hj, (hb.ext hi he').at (le_max_right _ _) hi'' hj]

theorem mkron_sat {env : Env (C K)} {s : St (C K)} (hi : Inv env s) {a b : Mat K} {ea eb : Edge (C K)}
    (ha : MRel env s a ea) (hb : MRel env s b eb) (hk : a.k + b.k ≤ NQUBITS) (hn : 0 < b.k → ¬ b.TopIdentity) :
    Sat (world env) (mmKron env ea eb) s (fun s' e => MRel env s' (a.kron b) e) := by
  refine Sat.mono (mmKron_sat hi hk ha.1 (hb.full hi hn)) fun s' e hi' he' hr => ?_
  refine MRel.of_rep hr fun i hi' j hj => ?_
  have key : ∀ x, x < 2 ^ (a.k + b.k) → x / 2 ^ b.k < 2 ^ a.k := fun x hx => by
    rw [Nat.div_lt_iff_lt_mul (Nat.two_pow_pos _), ← pow_add]; exact hx
  unfold kronM
  rw [Nat.shiftRight_eq_div_pow, Nat.shiftRight_eq_div_pow, ha.2 _ (key i hi') _ (key j hj),
    ← mden_low (mod_lowEq b.k i) (mod_lowEq b.k j), hb.2 _ (Nat.mod_lt _ (Nat.two_pow_pos _)) _
      (Nat.mod_lt _ (Nat.two_pow_pos _))]

theorem readVec_eq {env : Env (C K)} {s : St (C K)} (hi : Inv env s) {v : Vec K} {e : Edge (C K)} (h : VRel env s v e)
    (hn : v.Nonzero) (hk : v.k ≤ 30) :
    readVec s e = .ok (.vec ((List.range (2 ^ v.k)).map fun i => some (v.f i))) := by
  obtain ⟨a, h1, h2, h3⟩ := getVector_spec hi hk (h.nonzero hn).1 h.1
  unfold readVec
  rw [h1]
  dsimp only
  rw [h2]
  congr 2
  refine List.map_congr_left fun i hi => ?_
  have hi := List.mem_range.1 hi
  rw [h3 i hi, h.2.2 i hi]

theorem readMat_eq {env : Env (C K)} {s : St (C K)} (hi : Inv env s) {m : Mat K} {e : Edge (C K)} (h : MRel env s m e)
    {n : Nat} (hm : m.k ≤ n) (hk : n ≤ 30) :
    readMat s e n = .ok (.mat ((List.range (2 ^ n)).map fun i =>
      (List.range (2 ^ n)).map fun j => some (m.at n i j))) := by
  obtain ⟨a, h1, h2, h3⟩ := getMatrix_spec hi hk (h.1.mono hm)
  unfold readMat
  rw [h1]
  dsimp only
  rw [h2]
  congr 2
  refine List.map_congr_left fun i hi => List.map_congr_left fun j hj => ?_
  have hi := List.mem_range.1 hi
  have hj := List.mem_range.1 hj
  rw [h3 i hi j hj, h.at hm hi hj]

theorem basisVec_eq {k x i : Nat} (hx : x < 2 ^ k) (hi : i < 2 ^ k) :
    basisVec K k x i = (basis k x : Vec K).f i := by
  unfold basisVec basis
  refine if_congr ?_ rfl rfl
  rw [lowEq_mod, Nat.mod_eq_of_lt hi, Nat.mod_eq_of_lt hx]

/-- Calls other than garbage collection. -/
def isGc : Cmd K → Bool
  | .gc _ _ | .gcMat _ _ => true
  | _ => false

theorem call_sat (cfg : Cfg K) (fk : Nat → Bool) {s : St (C K)} {d : Data K} {h : Heap K} (hi : Inv cfg.env s)
    (hr : RelD cfg.env s d h) {c : Cmd K} (hg : isGc c = false) (hp : pre NQUBITS h c) {h' o'}
    (hs : step cfg.sqrt h c = some (h', o')) :
    Sat (world cfg.env) (prog cfg fk d c) s (Post cfg.env h' o') := by
  cases c with
  | zero n =>
    cases hs
    refine Post.newV hi hr (Sat.mono (makeZeroState_sat hi hp.1 hp.2) fun s' e _ _ h => ?_)
    refine VRel.of_rep hp.1 h fun i hi' => ?_
    exact if_congr (all_false_iff hi') rfl rfl
  | one n =>
    cases hs
    refine Post.newV hi hr (Sat.mono (makeOneState_sat hi hp.1 hp.2) fun s' e _ _ h => ?_)
    refine VRel.of_rep hp.1 h fun i hi' => ?_
    exact if_congr (all_true_iff hi') rfl rfl
  | ident =>
    cases hs
    refine Sat.pure fun s' hi' he' => ⟨rfl, (hr.ext hi he').addM ⟨.inl rfl, fun i hi'' j hj => ?_⟩⟩
    simp [mden, mptr, oneE_w]
  | gate n g t cs =>
    cases hs
    obtain ⟨h1, h2, h3, h4⟩ := hp
    refine Post.newM hi hr (Sat.mono (makeGate_sat hi h1 h2 (cs := ctl cs) ?_ ?_ g) fun s' e _ _ h => ?_)
    · unfold ctl; rw [List.pairwise_map]; exact h3
    · simpa [ctl] using h4
    · exact MRel.of_rep h fun i _ j _ => gate1_eq n g t cs i j
  | gate2 n g t0 t1 cs =>
    cases hs
    obtain ⟨h1, h2, h3, h4, h5, h6⟩ := hp
    refine Post.newM hi hr (Sat.mono (makeTwoQubitGate_sat hi h1 h2 h3 h4 (cs := ctl cs) ?_ ?_ g) fun s' e _ _ h => ?_)
    · unfold ctl; rw [List.pairwise_map]; exact h5
    · simpa [ctl] using h6
    · exact MRel.of_rep h fun i _ j _ => gate2_eq n g t0 t1 cs i j
  | cx n t c =>
    cases hs
    obtain ⟨h1, h2, h3, h4⟩ := hp
    exact Post.newM hi hr (Sat.mono (gateCX_sat hi h1 h2 h3 h4) fun s' e _ _ h => h)
  | swap n t0 t1 =>
    cases hs
    obtain ⟨h1, h2, h3, h4⟩ := hp
    exact Post.newM hi hr (Sat.mono (makeSwap_sat hi h1 h2 h3 h4) fun s' e _ _ h => h)
  | cswap n t0 t1 c =>
    cases hs
    obtain ⟨h1, h2, h3, h4, h5, h6, h7⟩ := hp
    exact Post.newM hi hr (Sat.mono (gateCSWAP_sat hi h1 h2 h3 h4 h5 h6 h7) fun s' e _ _ h => h)
  | mv m v =>
    obtain ⟨M, V, hm, hv, hk⟩ := hp
    simp only [Spec.step, hm, hv, Option.bind_eq_bind, Option.bind_some] at hs
    cases hs
    obtain ⟨em, hem, hrm⟩ := forall₂_get hr.ms hm
    obtain ⟨ev, hev, hrv⟩ := forall₂_get hr.vs hv
    exact Post.handle hem (Post.handle hev (Post.newV hi hr (mv_sat hi cfg.mt hrm hrv hk)))
  | vadd a b =>
    obtain ⟨A, B, ha, hb, hk⟩ := hp
    simp only [Spec.step, ha, hb, Option.bind_eq_bind, Option.bind_some] at hs
    cases hs
    obtain ⟨ea, hea, hra⟩ := forall₂_get hr.vs ha
    obtain ⟨eb, heb, hrb⟩ := forall₂_get hr.vs hb
    exact Post.handle hea (Post.handle heb (Post.newV hi hr (vadd_sat hi fk hra hrb hk)))
  | vkron a b =>
    obtain ⟨A, B, ha, hb, hna, hnb, hk⟩ := hp
    simp only [Spec.step, ha, hb, Option.bind_eq_bind, Option.bind_some] at hs
    cases hs
    obtain ⟨ea, hea, hra⟩ := forall₂_get hr.vs ha
    obtain ⟨eb, heb, hrb⟩ := forall₂_get hr.vs hb
    exact Post.handle hea (Post.handle heb (Post.newV hi hr (vkron_sat hi hra hrb hna hnb hk)))
  | scale v c =>
    obtain ⟨V, hv⟩ := hp
    simp only [Spec.step, hv, Option.bind_eq_bind, Option.bind_some] at hs
    cases hs
    obtain ⟨ev, hev, hrv⟩ := forall₂_get hr.vs hv
    refine Post.handle hev (Sat.pure fun s' hi' he' => ⟨rfl, (hr.ext hi he').addV ?_⟩)
    have hrv' := hrv.ext hi he'
    refine ⟨hrv'.1, ?_, fun i hi'' => ?_⟩
    · rcases hrv'.2.1 with h1 | ⟨h1, h2⟩
      · exact .inl h1
      · exact .inr ⟨by dsimp only; rw [mul_eq, h1, zero_mul], h2⟩
    · have := hrv'.2.2 i hi''
      simp only [Vec.scale, vden, mul_eq] at this ⊢
      rw [← this]; ring
  | mscale m c =>
    obtain ⟨M, hm⟩ := hp
    simp only [Spec.step, hm, Option.bind_eq_bind, Option.bind_some] at hs
    cases hs
    obtain ⟨em, hem, hrm⟩ := forall₂_get hr.ms hm
    refine Post.handle hem (Sat.pure fun s' hi' he' => ⟨rfl, (hr.ext hi he').addM ?_⟩)
    have hrm' := hrm.ext hi he'
    refine ⟨hrm'.1, fun i hi'' j hj => ?_⟩
    have := hrm'.2 i hi'' j hj
    simp only [Mat.scale, mden, mul_eq] at this ⊢
    rw [← this]; ring
  | mmul a b =>
    obtain ⟨A, B, ha, hb⟩ := hp
    simp only [Spec.step, ha, hb, Option.bind_eq_bind, Option.bind_some] at hs
    cases hs
    obtain ⟨ea, hea, hra⟩ := forall₂_get hr.ms ha
    obtain ⟨eb, heb, hrb⟩ := forall₂_get hr.ms hb
    exact Post.handle hea (Post.handle heb (Post.newM hi hr (mmul_sat hi hra hrb)))
  | madd a b =>
    obtain ⟨A, B, ha, hb⟩ := hp
    simp only [Spec.step, ha, hb, Option.bind_eq_bind, Option.bind_some] at hs
    cases hs
    obtain ⟨ea, hea, hra⟩ := forall₂_get hr.ms ha
    obtain ⟨eb, heb, hrb⟩ := forall₂_get hr.ms hb
    exact Post.handle hea (Post.handle heb (Post.newM hi hr (madd_sat hi hra hrb)))
  | mkron a b =>
    obtain ⟨A, B, ha, hb, hk, hn⟩ := hp
    simp only [Spec.step, ha, hb, Option.bind_eq_bind, Option.bind_some] at hs
    cases hs
    obtain ⟨ea, hea, hra⟩ := forall₂_get hr.ms ha
    obtain ⟨eb, heb, hrb⟩ := forall₂_get hr.ms hb
    exact Post.handle hea (Post.handle heb (Post.newM hi hr (mkron_sat hi hra hrb hk hn)))
  | gc _ _ => cases hg
  | gcMat _ _ => cases hg
  | getVector v =>
    obtain ⟨V, hv, hn, hk⟩ := hp
    simp only [Spec.step, hv, Option.bind_eq_bind, Option.bind_some] at hs
    cases hs
    obtain ⟨ev, hev, hrv⟩ := forall₂_get hr.vs hv
    refine Post.handle hev (Sat.bind (Q := fun _ x => x = _) (peek_sat fun s1 hi1 he1 =>
      ⟨_, readVec_eq hi1 (hrv.ext hi he1) hn hk, fun _ _ _ => rfl⟩) fun s1 x hi1 he1 hx => ?_)
    subst hx
    exact Sat.pure fun s' hi' he' => ⟨rfl, hr.ext hi ((world cfg.env).trans he1 he')⟩
  | getMatrix m n =>
    obtain ⟨M, hm, hk, hn⟩ := hp
    simp only [Spec.step, hm, Option.bind_eq_bind, Option.bind_some] at hs
    cases hs
    obtain ⟨em, hem, hrm⟩ := forall₂_get hr.ms hm
    refine Post.handle hem (Sat.bind (Q := fun _ x => x = _) (peek_sat fun s1 hi1 he1 =>
      ⟨_, readMat_eq hi1 (hrm.ext hi he1) hk hn, fun _ _ _ => rfl⟩) fun s1 x hi1 he1 hx => ?_)
    subst hx
    exact Sat.pure fun s' hi' he' => ⟨rfl, hr.ext hi ((world cfg.env).trans he1 he')⟩
  | probabilities v =>
    obtain ⟨V, hv, hn, hk⟩ := hp
    simp only [Spec.step, hv, Option.bind_eq_bind, Option.bind_some] at hs
    cases hs
    obtain ⟨ev, hev, hrv⟩ := forall₂_get hr.vs hv
    refine Post.handle hev (Sat.bind (Q := fun s' (x : List K × Memo K) =>
      x.1 = (List.range (2 ^ V.k)).map (fun i => (V.f i).mag2 / V.norm2) ∧ PInv cfg.env s' x.2)
      (peek_sat fun s1 hi1 he1 => ?_) ?_)
    · have hrv' := hrv.ext hi he1
      obtain ⟨hok, hw⟩ := hrv'.nonzero hn
      obtain ⟨m', h1, h2⟩ := probabilities_spec hi1 (hr.memo.ext hi he1) hok hw hk
      refine ⟨_, h1, fun s' hi' he' => ⟨List.map_congr_left fun i hi' => ?_, h2.ext hi1 he'⟩⟩
      have hi' := List.mem_range.1 hi'
      have hnn := norm2_spec hrv'
      unfold QDD.norm2 at hnn
      unfold born
      rw [hnn, hrv'.2.2 i hi']
    · rintro s1 ⟨l, m⟩ hi1 he1 ⟨h1, h2⟩
      dsimp only at h1 h2 ⊢
      subst h1
      refine Sat.pure fun s' hi' he' => ⟨rfl, ?_⟩
      have := hr.ext hi ((world cfg.env).trans he1 he')
      exact ⟨h2.ext hi1 he', this.vs, this.ms⟩
  | measureAll v c draw =>
    obtain ⟨V, hv, hn, hd⟩ := hp
    simp only [Spec.step, hv, Option.bind_eq_bind, Option.bind_some] at hs
    cases hs
    obtain ⟨ev, hev, hrv⟩ := forall₂_get hr.vs hv
    obtain ⟨hok, hw⟩ := hrv.nonzero hn
    refine Post.handle hev (Sat.bind (measureAll_eq hi hr.memo hok hw hrv.2.2 hd c) ?_)
    rintro s1 ⟨l, e, m⟩ hi1 he1 ⟨h1, h2, h3⟩
    dsimp only at h1 h2 h3 ⊢
    subst h1
    refine Sat.pure fun s' hi' he' => ⟨rfl, ?_⟩
    have hr' := hr.ext hi ((world cfg.env).trans he1 he')
    refine ⟨h2.ext hi1 he', forall₂_set hr'.vs ?_ v, hr'.ms⟩
    cases c
    · simp only [Bool.false_eq_true, if_false] at h3 ⊢
      rw [h3]; exact hrv.ext hi ((world cfg.env).trans he1 he')
    · simp only [if_true] at h3 ⊢
      exact VRel.of_rep hrv.1 (h3.ext hi1 he') fun i hi' => basisVec_eq (sample_lt _ _ _ _) hi'
  | measureOne v q eps =>
    obtain ⟨V, hv, hn, hq⟩ := hp
    simp only [Spec.step, hv, Option.bind_eq_bind, Option.bind_some] at hs
    cases hs
    obtain ⟨ev, hev, hrv⟩ := forall₂_get hr.vs hv
    refine Post.handle hev (Sat.bind (Q := fun s' (x : Option K × Memo K) =>
      x.1 = (if eps < |V.norm2 - 1| then none else some (V.marg q false / V.norm2)) ∧ PInv cfg.env s' x.2)
      (peek_sat fun s1 hi1 he1 => ?_) ?_)
    · have hrv' := hrv.ext hi he1
      obtain ⟨hok, hw⟩ := hrv'.nonzero hn
      obtain ⟨m', h2, h1⟩ := measureOne_spec hi1 (hr.memo.ext hi he1) hok hq eps
      refine ⟨_, h1, fun s' hi' he' => ⟨?_, h2.ext hi1 he'⟩⟩
      rw [norm2_spec hrv', marg_spec hrv']
    · rintro s1 ⟨l, m⟩ hi1 he1 ⟨h1, h2⟩
      dsimp only at h1 h2 ⊢
      subst h1
      refine Sat.pure fun s' hi' he' => ⟨?_, ?_⟩
      · by_cases ht : eps < |V.norm2 - 1| <;> simp [ht]
      have := hr.ext hi ((world cfg.env).trans he1 he')
      exact ⟨h2.ext hi1 he', this.vs, this.ms⟩
  | measureOneCollapsing v q eps draw =>
    obtain ⟨V, hv, hn, hq, hd⟩ := hp
    simp only [Spec.step, hv, Option.bind_eq_bind, Option.bind_some] at hs
    obtain ⟨ev, hev, hrv⟩ := forall₂_get hr.vs hv
    obtain ⟨hok, hw⟩ := hrv.nonzero hn
    refine Post.handle hev (Sat.bind
      (measureOneCollapsing_sat hi hr.memo hok hw hq cfg.mt cfg.sqrt (eps := eps) hd) ?_)
    rintro s1 ⟨x, m⟩ hi1 he1 ⟨h1, h2⟩
    dsimp only at h1 h2 ⊢
    rw [norm2_spec hrv] at h2
    by_cases ht : eps < |V.norm2 - 1|
    · rw [if_pos ht] at hs h2
      cases hs
      subst h2
      refine Sat.pure fun s' hi' he' => ⟨rfl, ?_⟩
      have := hr.ext hi ((world cfg.env).trans he1 he')
      exact ⟨h1.ext hi1 he', this.vs, this.ms⟩
    · rw [if_neg ht] at hs h2
      cases hs
      obtain ⟨one, e', rfl, h3, h4, h5⟩ := h2
      rw [marg_spec hrv] at h3 h4 h5
      subst h3
      refine Sat.pure fun s' hi' he' => ⟨rfl, ?_⟩
      have := hr.ext hi ((world cfg.env).trans he1 he')
      refine ⟨h1.ext hi1 he', forall₂_set this.vs ?_ v, this.ms⟩
      refine VRel.of_rep hrv.1 (h5.ext hi1 he') fun i hi' => ?_
      unfold projV
      rw [hrv.2.2 i hi']
      split <;> simp

/-! ## Total correctness of a call -/

/-- Under every schedule: no error, the call can always be completed, and on return `Q` holds. -/
def Total {σ α : Type} (p : Prog σ α) (s : σ) (Q : σ → α → Prop) : Prop :=
  (∀ p' s', Steps p s p' s' → ¬ Faults p' s' ∧ ∃ a s'', Steps p' s' (Prog.ret a) s'') ∧
  ∀ a s', Steps p s (Prog.ret a) s' → Q s' a

theorem Total.of_sat {σ α : Type} {Wd : World σ} {p : Prog σ α} {s : σ} {Q} (h : Sat Wd p s Q) (hi : Wd.Inv s) :
    Total p s (fun s' a => Wd.Inv s' ∧ Q s' a) := by
  refine ⟨fun p' s' hst => ?_, fun a s' hst => ?_⟩
  · obtain ⟨hi', _, h'⟩ := h.steps hst hi
    exact ⟨fun hf => h'.noFault hf hi', h'.finish hi'⟩
  · obtain ⟨hi', _, h'⟩ := h.steps hst hi
    exact ⟨hi', h' s' hi' (Wd.refl _)⟩

theorem Total.of_step {σ α β : Type} {f : Nat → σ → Except Err (β × σ)} {g : β → α} {s : σ} {Q : σ → α → Prop}
    (h : ∀ tid, ∃ b s', f tid s = .ok (b, s') ∧ Q s' (g b)) :
    Total (Prog.step f fun b => Prog.ret (g b)) s Q := by
  have fin : ∀ p' s', Steps (Prog.step f fun b => Prog.ret (g b)) s p' s' →
      (p' = Prog.step f (fun b => Prog.ret (g b)) ∧ s' = s) ∨ ∃ a, p' = Prog.ret a ∧ Q s' a := by
    intro p' s' hst
    rcases hst.of_step with ⟨h1, h2⟩ | ⟨tid, b, s1, h1, h2⟩
    · exact .inl ⟨h1, h2⟩
    · obtain ⟨rfl, rfl⟩ := h2.of_ret
      obtain ⟨b', s', h3, h4⟩ := h tid
      rw [h1] at h3
      cases h3
      exact .inr ⟨_, rfl, h4⟩
  refine ⟨fun p' s' hst => ?_, fun a s' hst => ?_⟩
  · rcases fin p' s' hst with ⟨rfl, rfl⟩ | ⟨a, rfl, _⟩
    · refine ⟨fun hf => ?_, ?_⟩
      · cases hf with
        | step tid he =>
          obtain ⟨b, s2, h3, _⟩ := h tid
          rw [he] at h3; cases h3
      · obtain ⟨b, s2, h3, _⟩ := h 0
        exact ⟨g b, s2, .tail .refl (.step 0 h3)⟩
    · exact ⟨(fun hf => by cases hf), a, s', .refl⟩
  · rcases fin _ _ hst with ⟨h1, _⟩ | ⟨a', h1, h2⟩
    · cases h1
    · cases h1; exact h2

theorem mapM_handle {l : List (Edge (C K))} : ∀ {keep : List Nat} {es : List (Edge (C K))},
    keep.mapM (l[·]?) = some es → keep.mapM (handle l) = (pure es : P (C K) _) := by
  intro keep
  induction keep with
  | nil => intro es h; simp at h; subst h; rfl
  | cons i keep ih =>
    intro es h
    rw [List.mapM_cons] at h
    simp only [Option.bind_eq_bind, Option.bind_eq_some_iff, Option.pure_def] at h
    obtain ⟨e, he, es', hes, h⟩ := h
    cases h
    rw [List.mapM_cons, ih hes]
    simp only [handle, he]
    rfl

theorem mapM_rel {α β : Type} {R : α → β → Prop} {as : List α} {bs : List β} (h : List.Forall₂ R as bs) :
    ∀ {keep : List Nat} {vs : List α}, keep.mapM (as[·]?) = some vs →
    ∃ es, keep.mapM (bs[·]?) = some es ∧ List.Forall₂ R vs es := by
  intro keep
  induction keep with
  | nil => intro vs h; simp at h; subst h; exact ⟨[], rfl, .nil⟩
  | cons i keep ih =>
    intro vs h'
    rw [List.mapM_cons] at h'
    simp only [Option.bind_eq_bind, Option.bind_eq_some_iff, Option.pure_def] at h'
    obtain ⟨v, hv, vs', hvs, h'⟩ := h'
    cases h'
    obtain ⟨e, he, hr⟩ := forall₂_get h hv
    obtain ⟨es, hes, hrs⟩ := ih hvs
    exact ⟨e :: es, by rw [List.mapM_cons, he, hes]; rfl, .cons hr hrs⟩

theorem VRel.transfer {env : Env (C K)} {s s' : St (C K)} {v : Vec K} {e e' : Edge (C K)} (h : VRel env s v e)
    (ht : ∀ k f, VRep env s k e f → VRep env s' k e' f) : VRel env s' v e' := by
  have := ht _ _ h.rep
  exact ⟨h.1, this.1, fun i hi => by rw [this.2, h.2.2 i hi]⟩

theorem MRel.transfer {env : Env (C K)} {s s' : St (C K)} {m : Mat K} {e e' : Edge (C K)} (h : MRel env s m e)
    (ht : ∀ k f, MRep env s k e f → MRep env s' k e' f) : MRel env s' m e' := by
  have := ht _ _ ⟨h.1, fun _ _ => rfl⟩
  exact ⟨this.1, fun i hi j hj => by rw [this.2, h.2 i hi j hj]⟩

theorem Forall₂.edge {α β : Type} {R : α → β → Prop} {as : List α} {bs : List β} (h : List.Forall₂ R as bs) :
    ∀ b ∈ bs, ∃ a, R a b := by
  induction h with
  | nil => simp
  | cons h1 h2 ih => intro b hb; rcases List.mem_cons.1 hb with rfl | hb; exacts [⟨_, h1⟩, ih b hb]

/-- **Every call is correct**: from a machine state representing `h`, a call that respects the preconditions has
no error and no dead end under any schedule, gives the specified answer and leaves a machine state representing
the specified heap. -/
theorem call_total (cfg : Cfg K) (fk : Nat → Bool) {σ : Sys K} {h : Heap K} (hr : Rel cfg.env σ h) {c : Cmd K}
    (hp : pre NQUBITS h c) {h' o'} (hs : Spec.step cfg.sqrt h c = some (h', o')) :
    Total (prog cfg fk σ.d c) σ.st (fun s' r => Rel cfg.env ⟨r.1, s'⟩ h' ∧ r.2 = o') := by
  by_cases hg : isGc c = false
  · have := Total.of_sat (call_sat cfg fk hr.inv hr.data hg hp hs) hr.inv
    exact ⟨this.1, fun a s' hst => ⟨⟨(this.2 a s' hst).1, (this.2 a s' hst).2.2⟩, (this.2 a s' hst).2.1⟩⟩
  cases c with
  | gc force keep =>
    simp only [Spec.step, Option.bind_eq_bind, Option.bind_eq_some_iff] at hs
    obtain ⟨vs, hvs, hs⟩ := hs
    cases hs
    obtain ⟨es, hes, hrel⟩ := mapM_rel hr.data.vs hvs
    have hprog : prog cfg fk σ.d (.gc force keep) = Prog.step (fun tid s =>
        match gc cfg.env tid force σ.d.thr es s with
        | .error er => .error er
        | .ok (es, thr, ran, s) => .ok ((es, thr, ran), s)) (fun b => Prog.ret
          (({ σ.d with vs := b.1, thr := b.2.1, memo := if b.2.2 then fun _ => none else σ.d.memo } : Data K),
            (.unit : Obs K))) := by
      simp only [prog]
      rw [mapM_handle hes]
      rfl
    rw [hprog]
    refine Total.of_step fun tid => ?_
    obtain ⟨es', thr', ran, s', h1, h2, h3, h4, h5⟩ := gc_spec hr.inv tid force σ.d.thr es (fun e he => by
      obtain ⟨v, hv⟩ := Forall₂.edge hrel e he
      exact ⟨v.k, hv.2.1⟩)
    refine ⟨(es', thr', ran), s', by simp only [h1], ⟨h2, ?_, ?_, ?_⟩, rfl⟩
    · cases ran
      · obtain ⟨rfl, rfl⟩ := h4 rfl
        exact hr.data.memo
      · exact PInv.empty _
    · exact forall₂_comp (fun v e e' hv he => hv.transfer he.2) hrel h5
    · refine forall₂_imp hr.data.ms fun m e hm => ?_
      refine hm.transfer fun k f hf => ?_
      unfold MRep MOk at hf ⊢
      dsimp only
      rw [h3]; exact hf
  | gcMat force keep =>
    simp only [Spec.step, Option.bind_eq_bind, Option.bind_eq_some_iff] at hs
    obtain ⟨vs, hvs, hs⟩ := hs
    cases hs
    obtain ⟨es, hes, hrel⟩ := mapM_rel hr.data.ms hvs
    have hprog : prog cfg fk σ.d (.gcMat force keep) = Prog.step (fun tid s =>
        match gcMat cfg.env tid force σ.d.thrM es s with
        | .error er => .error er
        | .ok (es, thr, _, s) => .ok ((es, thr), s)) (fun b => Prog.ret
          (({ σ.d with ms := b.1, thrM := b.2 } : Data K), (.unit : Obs K))) := by
      simp only [prog]
      rw [mapM_handle hes]
      rfl
    rw [hprog]
    refine Total.of_step fun tid => ?_
    obtain ⟨es', thr', ran, s', h1, h2, h3, h4, h5⟩ := gcMat_spec hr.inv tid force σ.d.thrM es (fun e he => by
      obtain ⟨v, hv⟩ := Forall₂.edge hrel e he
      exact ⟨v.k, hv.1⟩)
    refine ⟨(es', thr'), s', by simp only [h1], ⟨h2, ?_, ?_, ?_⟩, rfl⟩
    · have := hr.data.memo
      refine ⟨this.term, fun p x hx => ?_⟩
      dsimp only
      rw [h3]; exact this.node p x hx
    · refine forall₂_imp hr.data.vs fun v e hv => ?_
      refine hv.transfer fun k f hf => ?_
      unfold VRep VOk VPtrOk at hf ⊢
      dsimp only
      rw [h3]; exact hf
    · exact forall₂_comp (fun v e e' hv he => hv.transfer he.2) hrel h5
  | _ => simp [isGc] at hg

/-- The preconditions make the specification defined. -/
theorem step_defined (sqrt : K → K) {limit : Nat} {h : Heap K} {c : Cmd K} (hp : pre limit h c) :
    ∃ h' o', Spec.step sqrt h c = some (h', o') := by
  have mp : ∀ {α : Type} (l : List α) (keep : List Nat), (∀ i ∈ keep, ∃ V, l[i]? = some V) →
      ∃ vs, keep.mapM (l[·]?) = some vs := by
    intro α l keep
    induction keep with
    | nil => intro _; exact ⟨[], rfl⟩
    | cons i keep ih =>
      intro h
      obtain ⟨v, hv⟩ := h i (by simp)
      obtain ⟨vs, hvs⟩ := ih fun j hj => h j (by simp [hj])
      exact ⟨v :: vs, by rw [List.mapM_cons, hv, hvs]; rfl⟩
  cases c with
  | gc f keep =>
    obtain ⟨vs, hvs⟩ := mp h.vs keep hp
    simp only [Spec.step, hvs, Option.bind_eq_bind, Option.bind_some]
    exact ⟨_, _, rfl⟩
  | gcMat f keep =>
    obtain ⟨vs, hvs⟩ := mp h.ms keep hp
    simp only [Spec.step, hvs, Option.bind_eq_bind, Option.bind_some]
    exact ⟨_, _, rfl⟩
  | zero | one | ident | gate | gate2 | cx | swap | cswap => exact ⟨_, _, rfl⟩
  | mv m v =>
    obtain ⟨M, V, hm, hv, _⟩ := hp
    simp only [Spec.step, hm, hv, Option.bind_eq_bind, Option.bind_some]
    exact ⟨_, _, rfl⟩
  | vadd m v =>
    obtain ⟨M, V, hm, hv, _⟩ := hp
    simp only [Spec.step, hm, hv, Option.bind_eq_bind, Option.bind_some]
    exact ⟨_, _, rfl⟩
  | vkron m v =>
    obtain ⟨M, V, hm, hv, _⟩ := hp
    simp only [Spec.step, hm, hv, Option.bind_eq_bind, Option.bind_some]
    exact ⟨_, _, rfl⟩
  | mmul m v =>
    obtain ⟨M, V, hm, hv⟩ := hp
    simp only [Spec.step, hm, hv, Option.bind_eq_bind, Option.bind_some]
    exact ⟨_, _, rfl⟩
  | madd m v =>
    obtain ⟨M, V, hm, hv⟩ := hp
    simp only [Spec.step, hm, hv, Option.bind_eq_bind, Option.bind_some]
    exact ⟨_, _, rfl⟩
  | mkron m v =>
    obtain ⟨M, V, hm, hv, _⟩ := hp
    simp only [Spec.step, hm, hv, Option.bind_eq_bind, Option.bind_some]
    exact ⟨_, _, rfl⟩
  | mscale m _ =>
    obtain ⟨M, hm⟩ := hp
    simp only [Spec.step, hm, Option.bind_eq_bind, Option.bind_some]
    exact ⟨_, _, rfl⟩
  | scale v _ =>
    obtain ⟨V, hv⟩ := hp
    simp only [Spec.step, hv, Option.bind_eq_bind, Option.bind_some]
    exact ⟨_, _, rfl⟩
  | getVector v =>
    obtain ⟨V, hv, _⟩ := hp
    simp only [Spec.step, hv, Option.bind_eq_bind, Option.bind_some]
    exact ⟨_, _, rfl⟩
  | getMatrix v =>
    obtain ⟨V, hv, _⟩ := hp
    simp only [Spec.step, hv, Option.bind_eq_bind, Option.bind_some]
    exact ⟨_, _, rfl⟩
  | probabilities v =>
    obtain ⟨V, hv, _⟩ := hp
    simp only [Spec.step, hv, Option.bind_eq_bind, Option.bind_some]
    exact ⟨_, _, rfl⟩
  | measureAll v =>
    obtain ⟨V, hv, _⟩ := hp
    simp only [Spec.step, hv, Option.bind_eq_bind, Option.bind_some]
    exact ⟨_, _, rfl⟩
  | measureOne v =>
    obtain ⟨V, hv, _⟩ := hp
    simp only [Spec.step, hv, Option.bind_eq_bind, Option.bind_some]
    exact ⟨_, _, rfl⟩
  | measureOneCollapsing v q eps draw =>
    obtain ⟨V, hv, _⟩ := hp
    simp only [Spec.step, hv, Option.bind_eq_bind, Option.bind_some]
    split <;> exact ⟨_, _, rfl⟩

end QDD.Api
