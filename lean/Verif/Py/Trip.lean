import Verif.Py.Shot
/-!
# Executing a circuit shot by shot
-/

set_option linter.unusedSectionVars false
set_option linter.unusedVariables false
set_option linter.unusedSimpArgs false

namespace QDD.Py
open Spec Api Gate Finset Props Client

/-- The gate the backend builds preserves the norm. -/
theorem built_iso {n nc : Nat} {ms : List (Mat ℝ)} {x : Inst} {g : GName} {ctl : List Bool} (hx : Fine n nc ms x)
    (hop : x.op = .gate g ctl) {A : Nat → Nat → CR} (hA : built n g x.qargs = some A) : Isometry n A := by
  have hd := hx.distinct
  have hq := hx.qubits
  rw [← List.nodup_reverse] at hd
  unfold built at hA
  rcases h1 : tab1 g with _ | m1
  · rcases h2 : tab2 g with _ | m2
    · rw [h1, h2] at hA; cases hA
    · rcases hr : x.qargs.reverse with _ | ⟨t, _ | ⟨t', cs⟩⟩ <;> rw [h1, h2, hr] at hA <;> simp only [Option.some.injEq, reduceCtorEq] at hA
      subst hA
      rw [hr] at hd
      simp only [List.nodup_cons, List.mem_cons, not_or] at hd
      have mem : ∀ y, y ∈ t :: t' :: cs → y < n := fun y hy => hq y (by rw [← List.mem_reverse, hr]; exact hy)
      refine gate2_isometry (mem t (by simp)) (mem t' (by simp)) hd.1.1 ?_ (applies4 (tab2_unitary h2))
      intro c hc
      obtain ⟨y, hy, rfl⟩ := (mem_controls _ _).1 hc
      rw [List.mem_reverse] at hy
      exact ⟨fun e => hd.1.2 (e ▸ hy), fun e => hd.2.1 (e ▸ hy)⟩
  · rcases hr : x.qargs.reverse with _ | ⟨t, cs⟩ <;> rw [h1, hr] at hA <;> simp only [Option.some.injEq, reduceCtorEq] at hA
    subst hA
    rw [hr] at hd
    simp only [List.nodup_cons] at hd
    refine gate1_isometry (hq t (by rw [← List.mem_reverse, hr]; simp)) ?_ (C09_applies (tab1_unitary h1))
    intro c hc
    obtain ⟨y, hy, rfl⟩ := (mem_controls _ _).1 hc
    rw [List.mem_reverse] at hy
    exact fun e => hd.1 (e ▸ hy)

theorem gname_targets (g : GName) : g.mat1.isSome ∨ g.mat1 = none ∧ g.mat2.isSome := by
  cases g <;> simp [GName.mat1, GName.mat2] <;> rfl

variable {sqrt : ℝ → ℝ} {α : Type} {T : Option α → Prop}

/-- A gate instruction: build it, apply it, collect. -/
theorem gate_meets {n nc : Nat} {ms h} {x : Inst} {g : GName} {ctl : List Bool} (hx : Fine n nc ms x) (hop : x.op = .gate g ctl)
    {s : Loc} {f : Nat → CR} (hg : Good n ms h s.cur f) {k : Loc → Client α} {v : ℝ} (st sh : Bool)
    (hs : skips s.val x.cond = false)
    (hk : ∃ A, x.oper n = some A ∧ Isometry n A ∧ ∀ h' (s' : Loc) f', s'.val = s.val → s'.pc = s.pc → (∀ i < 2 ^ n, f' i = app n A f i) →
      Good n ms h' s'.cur f' → Meets sqrt (k s') h' T v) :
    Meets sqrt (instr n st sh x s k) h T v := by
  obtain ⟨A, hA, hiso, hk⟩ := hk
  have har := hx.arity
  have hf := hx.op
  rw [hop] at har hf
  simp only [Op.Fine] at hf
  unfold Inst.oper at hA
  rw [hop] at hA
  dsimp only at hA
  rw [← built_eq n g hf] at hA
  unfold instr
  rw [hs, hop, har.1]
  simp only [Bool.false_eq_true, if_false, List.isEmpty_nil, Bool.not_true, Bool.and_false]
  have hd := hx.distinct
  have hq := hx.qubits
  rw [← List.nodup_reverse] at hd
  unfold built at hA
  rcases h1 : tab1 g with _ | m1
  · rcases h2 : tab2 g with _ | m2
    · rw [h1, h2] at hA; cases hA
    · rcases hr : x.qargs.reverse with _ | ⟨t, _ | ⟨t', cs⟩⟩ <;> rw [h1, h2, hr] at hA <;>
        simp only [Option.some.injEq, reduceCtorEq] at hA
      subst hA
      dsimp only
      rw [hr] at hd
      simp only [List.nodup_cons, List.mem_cons, not_or] at hd
      have mem : ∀ y, y ∈ t :: t' :: cs → y < n := fun y hy => hq y (by rw [← List.mem_reverse, hr]; exact hy)
      refine Meets.call (h1 := h.addM ⟨n, Spec.gate2 n m2 t t' (controls cs.reverse)⟩) (o := .unit)
        ⟨mem t (by simp), mem t' (by simp), hd.1.1, hg.lim, controls_sorted (List.nodup_reverse.2 hd.2.2), ?_⟩ rfl ?_
      · intro c hc
        obtain ⟨y, hy, rfl⟩ := (mem_controls _ _).1 hc
        rw [List.mem_reverse] at hy
        exact ⟨fun e => hd.1.2 (e ▸ hy), fun e => hd.2.1 (e ▸ hy)⟩
      · exact applyLast_meets hg hiso hk
  · rcases hr : x.qargs.reverse with _ | ⟨t, cs⟩ <;> rw [h1, hr] at hA <;> simp only [Option.some.injEq, reduceCtorEq] at hA
    subst hA
    dsimp only
    rw [hr] at hd
    simp only [List.nodup_cons] at hd
    refine Meets.call (h1 := h.addM ⟨n, Spec.gate1 n m1 t (controls cs.reverse)⟩) (o := .unit)
      ⟨hq t (by rw [← List.mem_reverse, hr]; simp), hg.lim, controls_sorted (List.nodup_reverse.2 hd.2), ?_⟩ rfl ?_
    · intro c hc
      obtain ⟨y, hy, rfl⟩ := (mem_controls _ _).1 hc
      rw [List.mem_reverse] at hy
      exact fun e => hd.1 (e ▸ hy)
    · exact applyLast_meets hg hiso hk

/-- The operator of a supported gate exists. -/
theorem gate_oper {n nc : Nat} {ms} {x : Inst} {g : GName} {ctl : List Bool} (hx : Fine n nc ms x) (hop : x.op = .gate g ctl) :
    ∃ A, x.oper n = some A ∧ Isometry n A := by
  have har := hx.arity
  have hf := hx.op
  rw [hop] at har hf
  simp only [Op.Fine] at hf
  simp only [Op.arity] at har
  have hex : ∃ A, built n g x.qargs = some A := by
    rw [built_eq n g hf]
    unfold GName.oper
    have hl : x.qargs.reverse.length = x.qargs.length := List.length_reverse
    rcases gname_targets g with h1 | ⟨h1, h2⟩
    · obtain ⟨A, hA⟩ := Option.isSome_iff_exists.1 h1
      rw [hA] at har ⊢
      simp only [Option.isSome_some, if_true] at har
      rcases hr : x.qargs.reverse with _ | ⟨t, cs⟩
      · rw [hr] at hl; simp at hl; omega
      · exact ⟨_, rfl⟩
    · obtain ⟨A, hA⟩ := Option.isSome_iff_exists.1 h2
      rw [h1] at har ⊢
      rw [hA]
      simp only [Option.isSome_none, Bool.false_eq_true, if_false] at har
      rcases hr : x.qargs.reverse with _ | ⟨t, _ | ⟨t', cs⟩⟩
      · rw [hr] at hl; simp at hl; omega
      · rw [hr] at hl; simp at hl; omega
      · exact ⟨_, rfl⟩
  obtain ⟨A, hA⟩ := hex
  refine ⟨A, ?_, built_iso hx hop hA⟩
  unfold Inst.oper
  rw [hop]
  dsimp only
  rw [← built_eq n g hf, hA]

/-- A `QDDGate`. -/
theorem qdd_meets {n nc : Nat} {ms h} {x : Inst} {hd k : Nat} {M : Nat → Nat → CR} (hx : Fine n nc ms x) (hop : x.op = .qdd hd k M)
    {s : Loc} {f : Nat → CR} (hg : Good n ms h s.cur f) {c : Loc → Client α} {v : ℝ} (st sh : Bool)
    (hs : skips s.val x.cond = false)
    (hk : ∀ h' (s' : Loc) f', s'.val = s.val → s'.pc = s.pc → (∀ i < 2 ^ n, f' i = app n (onQubits n M x.qargs) f i) →
      Good n ms h' s'.cur f' → Meets sqrt (c s') h' T v) :
    Meets sqrt (instr n st sh x s c) h T v := by
  have hf := hx.op
  rw [hop] at hf
  obtain ⟨h1, h2, ⟨M', h3, hMM⟩, h4⟩ := hf
  unfold instr
  rw [hs, hop]
  simp only [Bool.false_eq_true, if_false]
  have hm : h.ms[hd]? = some ⟨k, M'⟩ := by
    obtain ⟨tl, htl⟩ := hg.ms
    rw [htl]
    have hlt : hd < ms.length := by
      by_contra hc
      rw [List.getElem?_eq_none (by omega)] at h3
      cases h3
    rw [List.getElem?_append_left hlt]; exact h3
  let V' : Vec ℝ := (⟨k, M'⟩ : Mat ℝ).apply ⟨n, f⟩
  have hf' : ∀ i < 2 ^ n, V'.f i = app n (onQubits n M x.qargs) f i := fun i hi => by
    show ∑ j ∈ range (2 ^ n), (⟨k, M'⟩ : Mat ℝ).at n i j * f j = ∑ j ∈ range (2 ^ n), onQubits n M x.qargs i j * f j
    refine Finset.sum_congr rfl fun j hj => ?_
    rw [h1, onQubits_range M hi (mem_range.1 hj)]
    congr 1
    have hp : 0 < 2 ^ k := Nat.two_pow_pos k
    show (if i / 2 ^ k = j / 2 ^ k then M' (i % 2 ^ k) (j % 2 ^ k) else 0) =
      if i / 2 ^ k = j / 2 ^ k then M (i % 2 ^ k) (j % 2 ^ k) else 0
    rw [hMM _ (Nat.mod_lt _ hp) _ (Nat.mod_lt _ hp)]
  refine Meets.call (h1 := h.addV V') (o := .unit) ⟨_, _, hm, hg.cur, h2⟩ ?_ ?_
  · simp only [Spec.step, hm, hg.cur, Option.bind_eq_bind, Option.bind_some]; rfl
  · have hv' : (h.addV V').vs[(h.addV V').vs.length - 1]? = some V' := by
      unfold Heap.addV
      rw [List.length_append, List.length_singleton, Nat.add_sub_cancel]
      simp
    refine Meets.call (h1 := ⟨[V'], (h.addV V').ms⟩) (o := .unit) ?_ ?_ ?_
    · intro i hi
      simp only [List.mem_singleton] at hi
      subst hi
      exact ⟨_, hv'⟩
    · simp only [Spec.step, List.mapM_cons, List.mapM_nil, hv', Option.bind_eq_bind, Option.bind_some, Option.pure_def]
    · refine hk _ _ V'.f rfl rfl hf' ⟨hg.pos, hg.lim, rfl, ?_, hg.ms⟩
      rw [nrm_congr hf', h1]
      exact ((onQubits_isometry h2 h4).norm2 f).trans hg.nrm

theorem flip_eq {n q : Nat} (hq : q < n) (f : Nat → CR) {i : Nat} (hi : i < 2 ^ n) :
    app n (Spec.gate1 n Xmat q []) f i = flip q f i := by
  unfold app flip
  have hlt := flip_lt hq hi
  have hbit : ∀ c, (i ^^^ 2 ^ q).testBit c = if c = q then !i.testBit c else i.testBit c := by
    intro c
    rw [Nat.testBit_xor, Nat.testBit_two_pow]
    by_cases hc : c = q
    · subst hc; simp
    · rw [if_neg hc]; simp [Ne.symm hc]
  rw [Finset.sum_eq_single (i ^^^ 2 ^ q)]
  · unfold Spec.gate1
    rw [if_pos (fun b _ hb => by rw [hbit, if_neg hb]), if_pos (by intro c hc; cases hc), hbit, if_pos rfl]
    cases i.testBit q
    · show (⟨1, 0⟩ : CR) * _ = _
      exact one_mul _
    · show (⟨1, 0⟩ : CR) * _ = _
      exact one_mul _
  · intro j hj hne
    unfold Spec.gate1
    by_cases hall : ∀ b < n, b ≠ q → i.testBit b = j.testBit b
    · rw [if_pos hall, if_pos (by intro c hc; cases hc)]
      have : i.testBit q = j.testBit q := by
        by_contra hq'
        apply hne
        apply Nat.eq_of_testBit_eq
        intro c
        rw [hbit]
        by_cases hc : c = q
        · rw [if_pos hc, hc]; revert hq'; cases i.testBit q <;> cases j.testBit q <;> simp
        · rw [if_neg hc]
          rcases Nat.lt_or_ge c n with hcn | hcn
          · exact (hall c hcn hc).symm
          · rw [Nat.testBit_lt_two_pow (lt_of_lt_of_le hi (Nat.pow_le_pow_right (by omega) hcn)),
              Nat.testBit_lt_two_pow (lt_of_lt_of_le (mem_range.1 hj) (Nat.pow_le_pow_right (by omega) hcn))]
      rw [this]
      cases j.testBit q
      · show (⟨0, 0⟩ : CR) * _ = _
        exact zero_mul _
      · show (⟨0, 0⟩ : CR) * _ = _
        exact zero_mul _
    · rw [if_neg hall, zero_mul]
  · intro h; exact absurd (mem_range.2 hlt) h

/-- The loop over the instructions, executed with measurements: the expected value of what comes after. -/
theorem insts_meets (hsq : ∀ x, 0 ≤ x → sqrt x * sqrt x = x) {n nc : Nat} {ms : List (Mat ℝ)} {φ : (Nat → Bool) → ℝ} {k : Loc → Client α}
    (hk : ∀ (s : Loc) h f, s.val.length = nc → Good n ms h s.cur f → Meets sqrt (k s) h T (φ (look s.val))) :
    ∀ (xs : List Inst), (∀ x ∈ xs, Fine n nc ms x) → ∀ (s : Loc) h f, s.val.length = nc → Good n ms h s.cur f →
      Meets sqrt (insts n false true xs s k) h T (expect n φ xs f (look s.val)) := by
  intro xs
  induction xs with
  | nil =>
    intro _ s h f hl hg
    show Meets sqrt (k s) h T (nrm n f * φ (look s.val))
    rw [hg.nrm, one_mul]
    exact hk s h f hl hg
  | cons x xs ih =>
    intro hfine s h f hl hg
    have hx := hfine x (by simp)
    have hxs : ∀ y ∈ xs, Fine n nc ms y := fun y hy => hfine y (by simp [hy])
    have hwf : ∀ y ∈ xs, y.WF n nc := fun y hy => (hxs y hy).toWF
    have ih := ih hxs
    show Meets sqrt (instr n false true x s fun s => insts n false true xs s k) h T _
    have hskip := skips_eq hx s.val
    by_cases hen : x.enabled (look s.val) = true
    · rw [hen] at hskip
      simp only [Bool.not_true] at hskip
      rcases hop : x.op with ⟨g, ctl⟩ | _ | ⟨hd, kk, M⟩ | _ | _ | _ | _
      · obtain ⟨A, hA, hiso⟩ := gate_oper hx hop
        refine gate_meets hx hop hg false true hskip ⟨A, hA, hiso, fun h' s' f' hv hpc hf' hg' => ?_⟩
        have := ih s' h' f' (by rw [hv]; exact hl) hg'
        rw [hv] at this
        unfold expect
        rw [if_pos hen, hop]
        dsimp only
        rw [hA]
        dsimp only
        rwa [expect_congr φ xs hwf _ hf'] at this
      · have := hx.op; rw [hop] at this; exact this.elim
      · refine qdd_meets hx hop hg false true hskip (fun h' s' f' hv hpc hf' hg' => ?_)
        have := ih s' h' f' (by rw [hv]; exact hl) hg'
        rw [hv] at this
        unfold expect
        rw [if_pos hen, hop]
        dsimp only
        rw [show x.oper n = some (onQubits n M x.qargs) by unfold Inst.oper; rw [hop]]
        dsimp only
        rwa [expect_congr φ xs hwf _ hf'] at this
      · unfold instr expect
        rw [hskip, hop, if_pos hen]
        exact ih s h f hl hg
      · have har := hx.arity
        rw [hop] at har
        obtain ⟨har1, har2⟩ := har
        obtain ⟨q, hq⟩ := List.length_eq_one_iff.1 har1
        obtain ⟨c, hc⟩ := List.length_eq_one_iff.1 har2
        have hqn : q < n := hx.qubits q (by rw [hq]; simp)
        have hcn : c < nc := hx.clbits c (by rw [hc]; simp)
        unfold instr expect
        rw [hskip, hop, if_pos hen, hq, hc]
        simp only [Bool.false_eq_true, if_false, if_true, List.headD_cons]
        refine measure_meets (nc := nc) hsq (s := s) hqn hg (k := fun b => collect { s with val := s.val.set c b } fun s => insts n false true xs s k)
          (E := fun b g => expect n φ xs g (upd (look s.val) c b)) ?_ ?_ ?_ ?_
        · intro b g hgz; exact expect_zero φ hwf _ hgz
        · intro b a g; exact expect_smul n φ a xs g _
        · intro b g g' hgg; exact expect_congr φ xs hwf _ hgg
        · intro b h' f' hg'
          refine collect_meets hg' fun h'' s'' hv hpc hg'' => ?_
          have hv : s''.val = s.val.set c b := hv
          have := ih s'' h'' f' (by rw [hv, List.length_set]; exact hl) hg''
          rwa [hv, look_set (by rw [hl]; exact hcn)] at this
      · have har := hx.arity
        rw [hop] at har
        obtain ⟨har1, har2⟩ := har
        obtain ⟨q, hq⟩ := List.length_eq_one_iff.1 har1
        have hqn : q < n := hx.qubits q (by rw [hq]; simp)
        unfold instr expect
        rw [hskip, hop, if_pos hen, hq]
        simp only [Bool.false_eq_true, if_false, List.headD_cons]
        refine measure_meets (nc := nc) hsq (s := s) hqn hg
          (k := fun b => if b then Client.call (.gate n Xmat q []) fun _ _ nm => applyLast s nm fun s => insts n false true xs s k
                else collect s fun s => insts n false true xs s k)
          (E := fun b g => if b then expect n φ xs (flip q g) (look s.val) else expect n φ xs g (look s.val)) ?_ ?_ ?_ ?_
        · intro b g hgz
          cases b
          · exact expect_zero φ hwf _ hgz
          · refine expect_zero φ hwf _ ?_
            have hi : Isometry n (Spec.gate1 n Xmat q []) := gate1_isometry hqn (by intro c hc; cases hc)
              (C09_applies (tab1_unitary (g := .X) rfl))
            have := hi.norm2 g
            rw [show Props.norm2 n g = nrm n g from rfl, hgz] at this
            rw [← this]
            exact (nrm_congr fun i hi => flip_eq hqn g hi).symm
        · intro b a g
          cases b
          · exact expect_smul n φ a xs g _
          · show expect n φ xs (flip q (smul a g)) _ = _
            rw [flip_smul]; exact expect_smul n φ a xs _ _
        · intro b g g' hgg
          cases b
          · exact expect_congr φ xs hwf _ hgg
          · exact expect_congr φ xs hwf _ fun i hi => hgg _ (flip_lt hqn hi)
        · intro b h' f' hg'
          cases b
          · simp only [Bool.false_eq_true, if_false]
            refine collect_meets hg' fun h'' s'' hv hpc hg'' => ?_
            have := ih s'' h'' f' (by rw [hv]; exact hl) hg''
            rwa [hv] at this
          · refine Meets.call (h1 := h'.addM ⟨n, Spec.gate1 n Xmat q []⟩) (o := .unit)
              ⟨hqn, hg'.lim, List.Pairwise.nil, by intro c hc; cases hc⟩ rfl ?_
            refine applyLast_meets hg' (gate1_isometry hqn (by intro c hc; cases hc)
              (C09_applies (tab1_unitary (g := .X) rfl))) fun h'' s'' f'' hv hpc hf'' hg'' => ?_
            have := ih s'' h'' f'' (by rw [hv]; exact hl) hg''
            rw [hv] at this
            rwa [expect_congr φ xs hwf _ (fun i hi => (hf'' i hi).trans (flip_eq hqn f' hi))] at this
      · have := hx.op; rw [hop] at this; exact this.elim
    · have hen' : x.enabled (look s.val) = false := by simpa using hen
      rw [hen'] at hskip
      unfold instr expect
      rw [hskip, hen']
      exact ih s h f hl hg

end QDD.Py
