import Verif.Api.SampleEq
/-!
# The engine refines the specification

`Rel`: every live handle of the machine denotes the corresponding plain value.  Each call preserves `Rel` and
gives the specified answer under every schedule.
-/

set_option linter.unusedSectionVars false
set_option linter.unusedVariables false
set_option linter.unusedSimpArgs false

namespace QDD.Prog
variable {σ : Type}

theorem bind'_ret {α : Type} (p : Prog σ α) : bind' p ret = p := by
  induction p with
  | ret a => rfl
  | step f k ih => simp only [bind', ih]
  | par p q k _ _ ih => simp only [bind', ih]

theorem bind'_assoc {α β γ : Type} (p : Prog σ α) (f : α → Prog σ β) (g : β → Prog σ γ) :
    bind' (bind' p f) g = bind' p fun a => bind' (f a) g := by
  induction p with
  | ret a => rfl
  | step h k ih => simp only [bind', ih]
  | par p q k _ _ ih => simp only [bind', ih]

instance : LawfulMonad (Prog σ) :=
  LawfulMonad.mk' (id_map := bind'_ret) (pure_bind := fun _ _ => rfl) (bind_assoc := bind'_assoc)

/-- A schedule of an atomic access followed by `k`. -/
theorem Steps.of_step {α β : Type} {f : Nat → σ → Except Err (β × σ)} {k : β → Prog σ α} {s : σ} {p' : Prog σ α}
    {s' : σ} (h : Steps (step f k) s p' s') :
    (p' = step f k ∧ s' = s) ∨ ∃ tid b s1, f tid s = .ok (b, s1) ∧ Steps (k b) s1 p' s' := by
  induction h with
  | refl => exact .inl ⟨rfl, rfl⟩
  | tail h1 h2 ih =>
    rcases ih with ⟨rfl, rfl⟩ | ⟨tid, b, s1, h3, h4⟩
    · cases h2 with
      | step tid hf => exact .inr ⟨tid, _, _, hf, .refl⟩
    · exact .inr ⟨tid, b, s1, h3, h4.tail h2⟩

theorem Steps.of_ret {α : Type} {a : α} {s : σ} {p' : Prog σ α} {s' : σ} (h : Steps (ret a) s p' s') :
    p' = ret a ∧ s' = s := by
  induction h with
  | refl => exact ⟨rfl, rfl⟩
  | tail h1 h2 ih =>
    obtain ⟨rfl, rfl⟩ := ih
    cases h2

theorem Steps.trans {α : Type} {p p' p'' : Prog σ α} {s s' s'' : σ} (h : Steps p s p' s') (h' : Steps p' s' p'' s'') :
    Steps p s p'' s'' := by
  induction h' with
  | refl => exact h
  | tail _ h2 ih => exact ih.tail h2

/-- A verified program can be scheduled to its end from wherever it is. -/
theorem Sat.finish {α : Type} {Wd : World σ} {p : Prog σ α} : ∀ {s : σ} {Q}, Sat Wd p s Q → Wd.Inv s →
    ∃ a s', Steps p s (ret a) s' := by
  have := acc p
  induction this with
  | intro p _ ih =>
    intro s Q h hi
    rcases progress p s with ⟨a, rfl⟩ | hf | ⟨p', s', hs⟩
    · exact ⟨a, s, .refl⟩
    · exact (h.noFault hf hi).elim
    · obtain ⟨hi', _, h'⟩ := Sat.step hs h hi
      obtain ⟨a, s'', hh⟩ := ih p' ⟨_, _, hs⟩ h' hi'
      exact ⟨a, s'', Steps.trans (.tail .refl hs) hh⟩

end QDD.Prog

namespace QDD.Api
open ExactW Prog Spec

variable {K : Type} [Field K] [LinearOrder K] [IsStrictOrderedRing K] {env : Env (C K)}

/-! ## Lists of handles -/

section lists
variable {α β : Type} {R : α → β → Prop}

theorem forall₂_get {as : List α} {bs : List β} (h : List.Forall₂ R as bs) : ∀ {i : Nat} {a : α}, as[i]? = some a →
    ∃ b, bs[i]? = some b ∧ R a b := by
  induction h with
  | nil => intro i a h; simp at h
  | cons h1 h2 ih =>
    intro i a h
    cases i with
    | zero => simp at h; subst h; exact ⟨_, by simp, h1⟩
    | succ i => simp at h; simpa using ih h

theorem forall₂_snoc {as : List α} {bs : List β} (h : List.Forall₂ R as bs) {a b} (hab : R a b) :
    List.Forall₂ R (as ++ [a]) (bs ++ [b]) := by
  induction h with
  | nil => simpa using hab
  | cons h1 h2 ih => simpa using ⟨h1, ih⟩

theorem forall₂_set {as : List α} {bs : List β} (h : List.Forall₂ R as bs) {a b} (hab : R a b) :
    ∀ i, List.Forall₂ R (as.set i a) (bs.set i b) := by
  induction h with
  | nil => intro i; simp
  | cons h1 h2 ih =>
    intro i
    cases i with
    | zero => exact .cons hab h2
    | succ i => exact .cons h1 (ih i)

theorem forall₂_imp {R' : α → β → Prop} {as : List α} {bs : List β} (h : List.Forall₂ R as bs)
    (hi : ∀ a b, R a b → R' a b) : List.Forall₂ R' as bs := h.imp hi

theorem set_self {l : List α} : ∀ {i : Nat} {a : α}, l[i]? = some a → l.set i a = l := by
  induction l with
  | nil => intro i a h; simp at h
  | cons x l ih =>
    intro i a h
    cases i with
    | zero => simp at h; subst h; rfl
    | succ i => simp at h; simp [ih h]

theorem forall₂_comp {γ : Type} {R' : β → γ → Prop} {T : α → γ → Prop} (hT : ∀ a b c, R a b → R' b c → T a c) :
    ∀ {as : List α} {bs : List β} {cs : List γ}, List.Forall₂ R as bs → List.Forall₂ R' bs cs →
    List.Forall₂ T as cs
  | _, _, _, .nil, .nil => .nil
  | _, _, _, .cons h1 h2, .cons h3 h4 => .cons (hT _ _ _ h1 h3) (forall₂_comp hT h2 h4)

end lists

/-! ## Denotation and specification -/

/-- The handle `e` denotes the vector `v`. -/
def VRel (env : Env (C K)) (s : St (C K)) (v : Vec K) (e : Edge (C K)) : Prop :=
  0 < v.k ∧ VOk env s v.k e ∧ ∀ i < 2 ^ v.k, vden s.vt.mem v.k e i = v.f i

/-- The handle `e` denotes the matrix `m`. -/
def MRel (env : Env (C K)) (s : St (C K)) (m : Mat K) (e : Edge (C K)) : Prop :=
  MOk env s m.k e.n ∧ ∀ i < 2 ^ m.k, ∀ j < 2 ^ m.k, mden s.mt.mem m.k e i j = m.F i j

theorem VRel.of_rep {s : St (C K)} {k : Nat} (hk : 0 < k) {e : Edge (C K)} {F f : Nat → C K} (h : VRep env s k e F)
    (hf : ∀ i < 2 ^ k, F i = f i) : VRel env s ⟨k, f⟩ e := ⟨hk, h.1, fun i hi => by rw [h.2, hf i hi]⟩

theorem MRel.of_rep {s : St (C K)} {k : Nat} {e : Edge (C K)} {F f : Nat → Nat → C K} (h : MRep env s k e F)
    (hf : ∀ i < 2 ^ k, ∀ j < 2 ^ k, F i j = f i j) : MRel env s ⟨k, f⟩ e :=
  ⟨h.1, fun i hi j hj => by rw [h.2, hf i hi j hj]⟩

theorem VRel.rep {s : St (C K)} {v : Vec K} {e : Edge (C K)} (h : VRel env s v e) :
    VRep env s v.k e (vden s.vt.mem v.k e) := ⟨h.2.1, fun _ => rfl⟩

theorem VRel.ext {s s' : St (C K)} (hi : Inv env s) (he : SExt env s s') {v e} (h : VRel env s v e) :
    VRel env s' v e := ⟨h.1, h.2.1.ext he, fun i hi' => by rw [vden_ext hi he h.2.1, h.2.2 i hi']⟩

theorem MRel.ext {s s' : St (C K)} (hi : Inv env s) (he : SExt env s s') {m e} (h : MRel env s m e) :
    MRel env s' m e := ⟨h.1.ext he, fun i hi' j hj => by rw [mden_ext hi he h.1, h.2 i hi' j hj]⟩

theorem vden_zero_w {mem : Nat → Option (VNode (C K))} {k : Nat} {e : Edge (C K)} (h : e.w = 0) (i : Nat) :
    vden mem k e i = 0 := by unfold vden; rw [h, zero_mul]

theorem VRel.nonzero {s : St (C K)} {v e} (h : VRel env s v e) (hn : v.Nonzero) :
    VPtrOk env s v.k e.n ∧ e.w ≠ 0 := by
  obtain ⟨i, hi, hne⟩ := hn
  rw [← h.2.2 i hi] at hne
  have hw : e.w ≠ 0 := fun hw => hne (vden_zero_w hw i)
  refine ⟨?_, hw⟩
  rcases h.2.1 with h1 | ⟨h1, _⟩
  · exact h1
  · exact absurd h1 hw

theorem mid_iff {k n i j : Nat} : (i % 2 ^ n) / 2 ^ k = (j % 2 ^ n) / 2 ^ k ↔
    ∀ b, k ≤ b → b < n → i.testBit b = j.testBit b := by
  constructor
  · intro h b hk hn
    have := congrArg (·.testBit (b - k)) h
    simpa [Nat.testBit_div_two_pow, Nat.testBit_mod_two_pow, Nat.sub_add_cancel hk, Nat.add_sub_cancel' hk, hn]
      using this
  · intro h
    apply Nat.eq_of_testBit_eq
    intro b
    simp only [Nat.testBit_div_two_pow, Nat.testBit_mod_two_pow]
    by_cases hb : b + k < n
    · simp [hb, h (b + k) (by omega) hb]
    · simp [hb]

/-- Reading a matrix with more qubits is tensoring with the identity. -/
theorem mden_at {s : St (C K)} {m : Mat K} {e : Edge (C K)} (h : MRel env s m e) : ∀ d i j,
    mden s.mt.mem (m.k + d) e i j = m.at (m.k + d) (i % 2 ^ (m.k + d)) (j % 2 ^ (m.k + d)) := by
  intro d
  induction d with
  | zero =>
    intro i j
    have hp := Nat.two_pow_pos m.k
    rw [Nat.add_zero, ← mden_low (mod_lowEq m.k i) (mod_lowEq m.k j),
      h.2 _ (Nat.mod_lt _ hp) _ (Nat.mod_lt _ hp)]
    unfold Mat.at
    rw [Nat.div_eq_of_lt (Nat.mod_lt _ hp), Nat.div_eq_of_lt (Nat.mod_lt _ hp), if_pos rfl, Nat.mod_mod, Nat.mod_mod]
  | succ d ih =>
    intro i j
    rw [← Nat.add_assoc, mden_lift (h.1.mono (Nat.le_add_right _ _)), liftF, ih]
    unfold Mat.at
    have hmod : ∀ x, x % 2 ^ (m.k + d) % 2 ^ m.k = x % 2 ^ m.k := fun x =>
      Nat.mod_mod_of_dvd _ (pow_dvd_pow 2 (Nat.le_add_right _ _))
    have hmod' : ∀ x, x % 2 ^ (m.k + d + 1) % 2 ^ m.k = x % 2 ^ m.k := fun x =>
      Nat.mod_mod_of_dvd _ (pow_dvd_pow 2 (by omega))
    simp only [hmod, hmod', mid_iff]
    by_cases hb : i.testBit (m.k + d) = j.testBit (m.k + d)
    · rw [if_pos hb]
      refine if_congr ⟨fun h b h1 h2 => ?_, fun h b h1 h2 => h b h1 (by omega)⟩ rfl rfl
      rcases Nat.lt_or_ge b (m.k + d) with h3 | h3
      · exact h b h1 h3
      · rw [show b = m.k + d by omega]; exact hb
    · rw [if_neg hb, if_neg fun h => hb (h _ (by omega) (by omega))]

theorem MRel.at {s : St (C K)} {m : Mat K} {e : Edge (C K)} (h : MRel env s m e) {n : Nat} (hn : m.k ≤ n) {i j : Nat}
    (hi : i < 2 ^ n) (hj : j < 2 ^ n) : mden s.mt.mem n e i j = m.at n i j := by
  obtain ⟨d, rfl⟩ := Nat.exists_eq_add_of_le hn
  rw [mden_at h d, Nat.mod_eq_of_lt hi, Nat.mod_eq_of_lt hj]

theorem MRel.full {s : St (C K)} (hi : Inv env s) {m : Mat K} {e : Edge (C K)} (h : MRel env s m e)
    (hn : 0 < m.k → ¬ m.TopIdentity) : FullM env s m.k e := by
  -- otherwise the handle lives one level lower
  have low : ∀ q, m.k = q + 1 → MOk env s q e.n → False := by
    intro q hq ho
    refine hn (by omega) ⟨⟨q, mden s.mt.mem q e⟩, by simp [hq], fun i hi' j hj => ?_⟩
    rw [← h.2 i hi' j hj]
    have hr : MRel env s ⟨q, mden s.mt.mem q e⟩ e := ⟨ho, fun _ _ _ _ => rfl⟩
    exact hr.at (n := m.k) (by dsimp only; omega) hi' hj
  rcases h.1 with hx | ⟨p, nd, h1, h2, h3⟩
  · rcases Nat.eq_zero_or_pos m.k with h0 | h0
    · exact .inl ⟨hx, h0⟩
    · exact (low (m.k - 1) (by omega) (.inl hx)).elim
  · by_cases hv : nd.v + 1 = (m.k : Int)
    · exact .inr ⟨p, nd, h1, h2, hv⟩
    · obtain ⟨q, hq, _⟩ := hi.mlevel h2
      exact (low (m.k - 1) (by omega) (.inr ⟨p, nd, h1, h2, by omega⟩)).elim

theorem gate1_eq (n : Nat) (g : Nat → Nat → C K) (t : Nat) (cs : List Ctrl) (i j : Nat) :
    QDD.gate1 n g t (ctl cs) i j = Spec.gate1 n g t cs i j := by
  unfold QDD.gate1 Spec.gate1 Spec.sat
  refine if_congr Iff.rfl (if_congr ?_ rfl rfl) rfl
  simp [ctl]

theorem gate2_eq (n : Nat) (g : Nat → Nat → C K) (t0 t1 : Nat) (cs : List Ctrl) (i j : Nat) :
    QDD.gate2 n g t0 t1 (ctl cs) i j = Spec.gate2 n g t0 t1 cs i j := by
  unfold QDD.gate2 Spec.gate2 Spec.sat
  refine if_congr Iff.rfl (if_congr ?_ rfl rfl) rfl
  simp [ctl]

theorem all_false_iff {k i : Nat} (hi : i < 2 ^ k) : (∀ b < k, i.testBit b = false) ↔ i = 0 := by
  constructor
  · intro h
    apply Nat.eq_of_testBit_eq
    intro b
    rw [Nat.zero_testBit]
    rcases Nat.lt_or_ge b k with hb | hb
    · exact h b hb
    · exact Nat.testBit_lt_two_pow (lt_of_lt_of_le hi (Nat.pow_le_pow_right (by omega) hb))
  · rintro rfl b _; simp

theorem all_true_iff {k i : Nat} (hi : i < 2 ^ k) : (∀ b < k, i.testBit b = true) ↔ i = 2 ^ k - 1 := by
  constructor
  · intro h
    apply Nat.eq_of_testBit_eq
    intro b
    rw [Nat.testBit_two_pow_sub_one]
    rcases Nat.lt_or_ge b k with hb | hb
    · simp [h b hb, hb]
    · rw [Nat.testBit_lt_two_pow (lt_of_lt_of_le hi (Nat.pow_le_pow_right (by omega) hb))]
      simp [hb]
  · rintro rfl b hb; rw [Nat.testBit_two_pow_sub_one]; simp [hb]

theorem norm2_spec {s : St (C K)} {v : Vec K} {e : Edge (C K)} (h : VRel env s v e) :
    QDD.norm2 s.vt.mem v.k e = v.norm2 := by
  unfold QDD.norm2 Vec.norm2
  rw [bsum_eq]
  exact Finset.sum_congr rfl fun i hi => by rw [h.2.2 i (Finset.mem_range.1 hi)]

theorem marg_spec {s : St (C K)} {v : Vec K} {e : Edge (C K)} (h : VRel env s v e) (q : Nat) (b : Bool) :
    QDD.marg s.vt.mem v.k e q b = v.marg q b := by
  unfold QDD.marg Vec.marg
  rw [bsum_eq]
  exact Finset.sum_congr rfl fun i hi => by rw [h.2.2 i (Finset.mem_range.1 hi)]

/-! ## The relation between heaps -/

/-- All handles of `d` denote the values of `h`, and the `probs` map is right. -/
structure RelD (env : Env (C K)) (s : St (C K)) (d : Data K) (h : Heap K) : Prop where
  memo : PInv env s d.memo
  vs : List.Forall₂ (VRel env s) h.vs d.vs
  ms : List.Forall₂ (MRel env s) h.ms d.ms

/-- The machine state `σ` represents the heap `h`. -/
structure Rel (env : Env (C K)) (σ : Sys K) (h : Heap K) : Prop where
  inv : Inv env σ.st
  data : RelD env σ.st σ.d h

theorem RelD.ext {s s' : St (C K)} (hi : Inv env s) (he : SExt env s s') {d h} (hr : RelD env s d h) :
    RelD env s' d h :=
  ⟨hr.memo.ext hi he, forall₂_imp hr.vs fun _ _ h => h.ext hi he, forall₂_imp hr.ms fun _ _ h => h.ext hi he⟩

theorem RelD.addV {s : St (C K)} {d h v e} (hr : RelD env s d h) (hv : VRel env s v e) :
    RelD env s (d.addV e) (h.addV v) := ⟨hr.memo, forall₂_snoc hr.vs hv, hr.ms⟩

theorem RelD.addM {s : St (C K)} {d h m e} (hr : RelD env s d h) (hm : MRel env s m e) :
    RelD env s (d.addM e) (h.addM m) := ⟨hr.memo, hr.vs, forall₂_snoc hr.ms hm⟩

theorem init_inv (env : Env (C K)) : Inv env (St.init : St (C K)) := by
  constructor
  · exact UTable.empty_inv
  · exact UTable.empty_inv
  · exact UTable.empty_uniq
  · exact UTable.empty_uniq
  · intro p nd h; simp [UTable.Reg, St.init, UTable.empty] at h
  · intro p nd h; simp [UTable.Reg, St.init, UTable.empty] at h
  · intro _ _ _ _ h; simp [St.init] at h
  · intro _ _ _ _ h; simp [St.init] at h
  · intro _ _ _ _ h; simp [St.init] at h
  · intro _ _ _ _ h; simp [St.init] at h

theorem init_rel (env : Env (C K)) (thr thrM : Nat) : Rel env (Sys.init thr thrM) (⟨[], []⟩ : Heap K) :=
  ⟨init_inv env, PInv.empty _, .nil, .nil⟩

theorem handle_sat {l : List (Edge (C K))} {i : Nat} {e : Edge (C K)} (h : l[i]? = some e) {s : St (C K)} :
    Sat (world env) (handle l i) s (fun _ x => x = e) := by
  unfold handle
  rw [h]
  exact Sat.pure fun _ _ _ => rfl

theorem peek_sat {α : Type} {f : St (C K) → Except Err α} {s : St (C K)} {Q : St (C K) → α → Prop}
    (h : ∀ s1, Inv env s1 → SExt env s s1 → ∃ a, f s1 = .ok a ∧ ∀ s', Inv env s' → SExt env s1 s' → Q s' a) :
    Sat (world env) (peek f) s Q := by
  refine Sat.atom fun s1 tid hi1 he1 => ?_
  obtain ⟨a, h1, h2⟩ := h s1 hi1 he1
  exact ⟨a, s1, by simp only [h1], hi1, (world env).refl _, h2⟩

end QDD.Api
