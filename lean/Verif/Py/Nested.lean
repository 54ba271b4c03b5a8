import Verif.Py.Merge
/-!
# Merged gates inside merged circuits
-/

set_option linter.unusedSectionVars false
set_option linter.unusedVariables false
set_option linter.unusedSimpArgs false

namespace QDD.Py
open Spec Api Gate Finset Props Client

/-- A circuit of unconditional gates (named, with closed controls), barriers and merged gates that the heap holds, on the lowest qubits. -/
structure MixedCirc (ms : List (Mat ℝ)) (c : Circ) : Prop where
  pos : 0 < c.nq
  lim : c.nq ≤ NQUBITS
  fine : ∀ x ∈ c.data, Fine c.nq c.nc ms x
  gates : ∀ x ∈ c.data, x.cond = none ∧ (x.op = .barrier ∨ (∃ g ctl, x.op = .gate g ctl) ∨ ∃ hd k M, x.op = .qdd hd k M)

theorem Fine.append {n nc : Nat} {ms : List (Mat ℝ)} {x : Inst} (hx : Fine n nc ms x) (tl : List (Mat ℝ)) : Fine n nc (ms ++ tl) x where
  toWF := hx.toWF
  aligned := hx.aligned
  op := by
    have := hx.op
    rcases hop : x.op with ⟨g, ctl⟩ | _ | ⟨hd, k, M⟩ | _ | _ | _ | _ <;> rw [hop] at this <;> try exact this
    obtain ⟨h1, h2, ⟨M', h3, h4⟩, h5⟩ := this
    refine ⟨h1, h2, ⟨M', ?_, h4⟩, h5⟩
    rw [List.getElem?_append_left]
    · exact h3
    · by_contra hc
      rw [List.getElem?_eq_none (by omega)] at h3
      cases h3

theorem MixedCirc.append {ms : List (Mat ℝ)} {c : Circ} (hc : MixedCirc ms c) (tl : List (Mat ℝ)) : MixedCirc (ms ++ tl) c :=
  ⟨hc.pos, hc.lim, fun x hx => (hc.fine x hx).append tl, hc.gates⟩

theorem GateCirc.mixed {c : Circ} (hc : GateCirc c) (ms : List (Mat ℝ)) : MixedCirc ms c :=
  ⟨hc.pos, hc.lim, fun x hx => (hc.fine x hx).append ms, fun x hx => ⟨(hc.gates x hx).1, (hc.gates x hx).2.imp_right .inl⟩⟩

/-- An instruction of such a circuit, on `k` qubits and on `n`. -/
theorem mixed_at {ms : List (Mat ℝ)} {c : Circ} (hc : MixedCirc ms c) {n : Nat} (hk : c.nq ≤ n) {x : Inst} (hx : x ∈ c.data) :
    (∀ m, x.oper m = none) ∨ ∃ A B, x.oper c.nq = some A ∧ x.oper n = some B ∧ Isometry c.nq A ∧
      ∀ i < 2 ^ n, ∀ j < 2 ^ n, B i j = (⟨c.nq, A⟩ : Mat ℝ).at n i j := by
  have hf := hc.fine x hx
  rcases (hc.gates x hx).2 with hop | ⟨g, ctl, hop⟩ | ⟨hd, k, M, hop⟩
  · left; intro m; unfold Inst.oper; rw [hop]
  · right
    obtain ⟨A, B, hA, hB, hAB⟩ := oper_at hk hf hop
    obtain ⟨A', hA', hi⟩ := gate_oper hf hop
    rw [hA] at hA'; cases hA'
    exact ⟨A, B, hA, hB, hi, hAB⟩
  · right
    have h := hf.op
    rw [hop] at h
    obtain ⟨h1, h2, _, h4⟩ := h
    have e : ∀ m, x.oper m = some (onQubits m M (List.range k)) := fun m => by unfold Inst.oper; rw [hop, h1]
    refine ⟨_, _, e _, e _, onQubits_isometry h2 h4, fun i hi j hj => ?_⟩
    rw [onQubits_range M hi hj, ← at_at ⟨k, M⟩ h2 n i j]
    unfold Mat.at
    dsimp only
    have hp := Nat.two_pow_pos c.nq
    split
    · rw [onQubits_range M (Nat.mod_lt _ hp) (Nat.mod_lt _ hp)]
      rfl
    · rfl

theorem opMat_isometry' {ms : List (Mat ℝ)} {c : Circ} (hc : MixedCirc ms c) : Isometry c.nq (opMat c) := by
  intro j hj l hl
  have hI : ∀ x ∈ c.data, ∀ A, x.oper c.nq = some A → Isometry c.nq A := by
    intro x hx A hA
    rcases mixed_at hc le_rfl hx with h | ⟨B, _, hB, _, hi, _⟩
    · rw [h] at hA; cases hA
    · rw [hB] at hA; cases hA; exact hi
  have h1 := evol_inner (n := c.nq) c.data hI (ket j) (ket l)
  have hp : conj (⟨Real.cos c.phase, Real.sin c.phase⟩ : CR) * ⟨Real.cos c.phase, Real.sin c.phase⟩ = 1 := by
    have := Real.sin_sq_add_cos_sq c.phase
    apply Cx.ext
    · simp [conj]; nlinarith
    · simp [conj]; ring
  have h2 : ∑ i ∈ range (2 ^ c.nq), conj (opMat c i j) * opMat c i l =
      ∑ i ∈ range (2 ^ c.nq), conj (evol c.nq c.data (ket j) i) * evol c.nq c.data (ket l) i := by
    refine Finset.sum_congr rfl fun i _ => ?_
    unfold opMat
    rw [Props.conj_mul]
    calc _ = conj (evol c.nq c.data (ket j) i) * evol c.nq c.data (ket l) i *
        (conj (⟨Real.cos c.phase, Real.sin c.phase⟩ : CR) * ⟨Real.cos c.phase, Real.sin c.phase⟩) := by ring
      _ = _ := by rw [hp, mul_one]
  rw [h2, h1, Finset.sum_eq_single j]
  · have c1 : conj (1 : CR) = 1 := by apply Cx.ext <;> simp [conj]
    show conj (if j = j then 1 else 0) * (if j = l then 1 else 0) = _
    rw [if_pos rfl, c1, one_mul]
  · intro m _ hm
    have c0 : conj (0 : CR) = 0 := by apply Cx.ext <;> simp [conj]
    show conj (if m = j then 1 else 0) * _ = _
    rw [if_neg hm, c0, zero_mul]
  · intro h; exact absurd (mem_range.2 hj) h

/-! ## The loop -/

variable {sqrt : ℝ → ℝ} {α : Type} {T : Option α → Prop}

/-- Matrices were added to the heap. -/
def Grown (h h' : Heap ℝ) : Prop := h'.vs = h.vs ∧ ∃ tl, h'.ms = h.ms ++ tl

theorem Grown.refl (h : Heap ℝ) : Grown h h := ⟨rfl, [], by simp⟩

theorem Grown.trans {h h' h'' : Heap ℝ} (a : Grown h h') (b : Grown h' h'') : Grown h h'' := by
  obtain ⟨a1, tl, a2⟩ := a
  obtain ⟨b1, tl', b2⟩ := b
  exact ⟨b1.trans a1, tl ++ tl', by rw [b2, a2, List.append_assoc]⟩

theorem Grown.addM (h : Heap ℝ) (M : Mat ℝ) : Grown h (h.addM M) := ⟨rfl, [M], rfl⟩

theorem getElem?_some_lt {β : Type} {l : List β} {i : Nat} {a : β} (h : l[i]? = some a) : i < l.length := by
  by_contra hc
  rw [List.getElem?_eq_none (by omega)] at h
  cases h

theorem Grown.get {h h' : Heap ℝ} (g : Grown h h') {i : Nat} {M : Mat ℝ} (hi : h.ms[i]? = some M) : h'.ms[i]? = some M := by
  obtain ⟨_, tl, e⟩ := g
  rw [e, List.getElem?_append_left (getElem?_some_lt hi)]
  exact hi

/-- The product with the matrix `hd` of at most `n` qubits. -/
theorem mmul_meets {n hd k : Nat} {h : Heap ℝ} {cur : Nat} {A F : Nat → Nat → CR} {K : Obs ℝ → Nat → Nat → Client α} {v : ℝ}
    (hA : h.ms[hd]? = some ⟨k, A⟩) (hkn : k ≤ n) (hh : Holds n h cur F)
    (hk : ∀ h', Grown h h' → Holds n h' (h'.ms.length - 1) (fun i j => app n ((⟨k, A⟩ : Mat ℝ).at n) (fun m => F m j) i) →
      Meets sqrt (K .unit h'.vs.length h'.ms.length) h' T v) :
    Meets sqrt (.call (.mmul hd cur) K) h T v := by
  obtain ⟨F', hF, hFF⟩ := hh.ex
  let M' : Mat ℝ := (⟨k, A⟩ : Mat ℝ).mul ⟨n, F'⟩
  refine Meets.call (h1 := h.addM M') (o := .unit) ⟨_, _, hA, hF⟩ ?_ ?_
  · simp only [Spec.step, hA, hF, Option.bind_eq_bind, Option.bind_some]; rfl
  · refine hk _ (Grown.addM h M') ⟨M'.F, ?_, ?_⟩
    · have hk : M'.k = n := Nat.max_eq_right hkn
      have : M' = ⟨n, M'.F⟩ := by rw [← hk]
      rw [← this]
      unfold Heap.addM
      rw [List.length_append (bs := [M']), List.length_singleton, Nat.add_sub_cancel]
      simp
    · intro i hi j hj
      show ∑ m ∈ range (2 ^ max k n), (⟨k, A⟩ : Mat ℝ).at (max k n) i m * (⟨n, F'⟩ : Mat ℝ).at (max k n) m j = _
      rw [Nat.max_eq_right hkn]
      unfold app
      refine Finset.sum_congr rfl fun m hm => ?_
      rw [show (⟨n, F'⟩ : Mat ℝ).at n m j = F' m j from at_self ⟨n, F'⟩ (mem_range.1 hm) hj, hFF m (mem_range.1 hm) j hj]

theorem Holds.grown {n cur : Nat} {h h' : Heap ℝ} {F : Nat → Nat → CR} (hh : Holds n h cur F) (g : Grown h h') : Holds n h' cur F := by
  obtain ⟨F', hF, hFF⟩ := hh.ex
  exact ⟨F', g.get hF, hFF⟩

theorem mergeStep_meets' {c : Circ} {freq : Nat} {x : Inst} {count cur : Nat} {h : Heap ℝ} (hc : MixedCirc h.ms c) (hx : x ∈ c.data)
    (hcount : count + 1 < freq) {F : Nat → Nat → CR} {k : Nat → Nat → Client α} {v : ℝ} (hh : Holds c.nq h cur F)
    (hk : ∀ h' count' cur', Grown h h' → count' ≤ count + 1 → Holds c.nq h' cur' (fun i j => evol c.nq [x] (fun m => F m j) i) →
      Meets sqrt (k count' cur') h' T v) : Meets sqrt (mergeStep c.nq freq x count cur k) h T v := by
  have hfx := hc.fine x hx
  have hnext : ∀ cur : Nat, (if freq = 0 then Client.raise else
      if (count + 1) % freq = 0 then .call (.gcMat false [cur]) fun _ _ _ => k (count + 1) 0 else k (count + 1) cur) = k (count + 1) cur := by
    intro cur
    rw [if_neg (by omega), if_neg (by rw [Nat.mod_eq_of_lt hcount]; omega)]
  rcases (hc.gates x hx).2 with hop | ⟨g, ctl, hop⟩ | ⟨hd, kq, M, hop⟩
  · have : x.oper c.nq = none := by unfold Inst.oper; rw [hop]
    unfold mergeStep
    rw [hop]
    refine hk _ _ _ (Grown.refl h) (by omega) ?_
    unfold evol
    rw [this]
    exact hh
  · obtain ⟨A, hA, hiso⟩ := gate_oper hfx hop
    have hev : ∀ f, evol c.nq [x] f = app c.nq A f := fun f => by unfold evol; rw [hA]; rfl
    simp only [hev] at hk
    have hgo : Meets sqrt (mulLast (h.addM ⟨c.nq, A⟩).ms.length cur fun cur => k (count + 1) cur) (h.addM ⟨c.nq, A⟩) T v := by
      unfold mulLast
      refine mmul_meets (n := c.nq) (k := c.nq) (A := A) ?_ le_rfl (hh.grown (Grown.addM h _)) fun h' hg hh' => ?_
      · unfold Heap.addM
        rw [List.length_append, List.length_singleton, Nat.add_sub_cancel]
        simp
      · refine hk _ _ _ ((Grown.addM h _).trans hg) le_rfl ?_
        obtain ⟨F', hF, hFF⟩ := hh'.ex
        refine ⟨F', hF, fun i hi j hj => ?_⟩
        rw [hFF i hi j hj]
        refine app_congr (fun a ha b hb => at_self ⟨c.nq, A⟩ ha hb) (fun _ _ => rfl) hi
    have har := hfx.arity
    have hcl := hfx.op
    rw [hop] at har hcl
    simp only [Op.arity] at har
    simp only [Op.Fine] at hcl
    unfold Inst.oper at hA
    rw [hop] at hA
    dsimp only at hA
    rw [← built_eq c.nq g hcl] at hA
    unfold mergeStep
    rw [hop, har.1]
    simp only [List.isEmpty_nil, Bool.not_true, Bool.false_eq_true, if_false]
    simp only [hnext]
    have hd := hfx.distinct
    have hq := hfx.qubits
    rw [← List.nodup_reverse] at hd
    unfold built at hA
    rcases h1 : tab1 g with _ | m1
    · rcases h2 : tab2 g with _ | m2
      · rw [h1, h2] at hA; cases hA
      · rcases hr : x.qargs.reverse with _ | ⟨t, _ | ⟨t', cs⟩⟩ <;> rw [h1, h2, hr] at hA <;>
          simp only [Option.some.injEq, reduceCtorEq] at hA
        subst hA
        dsimp only
        rw [hr] at hd
        simp only [List.nodup_cons, List.mem_cons, not_or] at hd
        have mem : ∀ y, y ∈ t :: t' :: cs → y < c.nq := fun y hy => hq y (by rw [← List.mem_reverse, hr]; exact hy)
        refine Meets.call (h1 := h.addM ⟨c.nq, Spec.gate2 c.nq m2 t t' (controls cs.reverse)⟩) (o := .unit)
          ⟨mem t (by simp), mem t' (by simp), hd.1.1, hc.lim, controls_sorted (List.nodup_reverse.2 hd.2.2), ?_⟩ rfl hgo
        intro b hb
        obtain ⟨y, hy, rfl⟩ := (mem_controls _ _).1 hb
        rw [List.mem_reverse] at hy
        exact ⟨fun e => hd.1.2 (e ▸ hy), fun e => hd.2.1 (e ▸ hy)⟩
    · rcases hr : x.qargs.reverse with _ | ⟨t, cs⟩ <;> rw [h1, hr] at hA <;> simp only [Option.some.injEq, reduceCtorEq] at hA
      subst hA
      dsimp only
      rw [hr] at hd
      simp only [List.nodup_cons] at hd
      refine Meets.call (h1 := h.addM ⟨c.nq, Spec.gate1 c.nq m1 t (controls cs.reverse)⟩) (o := .unit)
        ⟨hq t (by rw [← List.mem_reverse, hr]; simp), hc.lim, controls_sorted (List.nodup_reverse.2 hd.2), ?_⟩ rfl hgo
      intro b hb
      obtain ⟨y, hy, rfl⟩ := (mem_controls _ _).1 hb
      rw [List.mem_reverse] at hy
      exact fun e => hd.1 (e ▸ hy)
  · have hop' := hfx.op
    have har := hfx.arity
    rw [hop] at hop' har
    obtain ⟨h1, h2, ⟨M', h3, h4⟩, h5⟩ := hop'
    have hev : ∀ f, evol c.nq [x] f = app c.nq (onQubits c.nq M x.qargs) f := fun f => by
      unfold evol Inst.oper; rw [hop]; rfl
    simp only [hev] at hk
    unfold mergeStep
    rw [hop, har.1]
    simp only [List.isEmpty_nil, Bool.not_true, Bool.false_eq_true, if_false]
    simp only [hnext]
    refine mmul_meets (n := c.nq) h3 h2 hh fun h' hg hh' => ?_
    refine hk _ _ _ hg le_rfl ?_
    obtain ⟨F', hF, hFF⟩ := hh'.ex
    refine ⟨F', hF, fun i hi j hj => ?_⟩
    rw [hFF i hi j hj]
    refine app_congr (fun a ha b hb => ?_) (fun _ _ => rfl) hi
    rw [h1, onQubits_range M ha hb]
    unfold Mat.at
    dsimp only
    have hp := Nat.two_pow_pos kq
    split
    · exact h4 _ (Nat.mod_lt _ hp) _ (Nat.mod_lt _ hp)
    · rfl

theorem mergeLoop_meets' {c : Circ} {freq : Nat} : ∀ (xs : List Inst), (∀ x ∈ xs, x ∈ c.data) →
    ∀ {count cur : Nat} {h : Heap ℝ} (_ : MixedCirc h.ms c) (_ : count + xs.length < freq) {F : Nat → Nat → CR} {k : Nat → Client α} {v : ℝ}, Holds c.nq h cur F →
    (∀ h' cur', Grown h h' → Holds c.nq h' cur' (fun i j => evol c.nq xs (fun m => F m j) i) →
      Meets sqrt (k cur') h' T v) → Meets sqrt (mergeLoop c.nq freq xs count cur k) h T v := by
  intro xs
  induction xs with
  | nil => intro _ count cur h _ _ F k v hh hk; exact hk _ _ (Grown.refl h) hh
  | cons x xs ih =>
    intro hsub count cur h hc hcount F k v hh hk
    have ih := @ih fun y hy => hsub y (by simp [hy])
    rw [List.length_cons] at hcount
    unfold mergeLoop
    refine mergeStep_meets' hc (hsub x (by simp)) (by omega) hh fun h' count' cur' hg hle hh' => ?_
    obtain ⟨_, tl, htl⟩ := id hg
    refine ih (by rw [htl]; exact hc.append tl) (by omega) hh' fun h'' cur'' hg' hh'' => hk _ _ (hg.trans hg') ?_
    have e : ∀ f, evol c.nq xs (evol c.nq [x] f) = evol c.nq (x :: xs) f := by
      intro f
      cases hA : x.oper c.nq with
      | none => simp only [evol, hA]
      | some A => simp only [evol, hA]
    have : (fun i j => evol c.nq xs (fun m => evol c.nq [x] (fun m => F m j) m) i) =
        fun i j => evol c.nq (x :: xs) (fun m => F m j) i := by
      funext i j
      exact congrFun (e _) i
    rwa [this] at hh''

/-- Fewer than `freq` instructions: no garbage is collected, so the merged gates made before stay valid. -/
theorem merge_meets' {c : Circ} {freq : Nat} {h : Heap ℝ} (hc : MixedCirc h.ms c) (hf : c.data.length < freq) {k : Nat → Client α} {v : ℝ}
    (hk : ∀ h' hd, Grown h h' → Holds c.nq h' hd (opMat c) → Meets sqrt (k hd) h' T v) :
    Meets sqrt (merge c freq k) h T v := by
  unfold merge
  refine Meets.call (h1 := h.addM ⟨c.nq, Spec.gate1 c.nq Imat 0 []⟩) (o := .unit)
    ⟨hc.pos, hc.lim, List.Pairwise.nil, by intro c hc; cases hc⟩ rfl ?_
  refine mergeLoop_meets' c.data (fun _ h => h) (hc.append _) (by omega) (F := fun i j => ket j i) ⟨⟨_, ?_, fun i hi j hj => gate_I hc.pos hi hj⟩⟩ ?_
  · unfold Heap.addM
    rw [List.length_append, List.length_singleton, Nat.add_sub_cancel]
    simp
  · intro h' cur' hg hh
    obtain ⟨F', hF, hFF⟩ := hh.ex
    refine Meets.call (h1 := h'.addM ((⟨c.nq, F'⟩ : Mat ℝ).scale ⟨Real.cos c.phase, Real.sin c.phase⟩)) (o := .unit) ⟨_, hF⟩ ?_ ?_
    · simp only [Spec.step, hF, Option.bind_eq_bind, Option.bind_some]
    · refine hk _ _ (((Grown.addM h _).trans hg).trans (Grown.addM h' _)) ⟨⟨fun i j => F' i j * ⟨Real.cos c.phase, Real.sin c.phase⟩, ?_, ?_⟩⟩
      · unfold Heap.addM
        rw [List.length_append, List.length_singleton, Nat.add_sub_cancel]
        simp [Mat.scale]
      · intro i hi j hj
        dsimp only
        rw [hFF i hi j hj]
        rfl

/-! ## Inlining -/

theorem evol_block' {ms : List (Mat ℝ)} {c : Circ} (hc : MixedCirc ms c) {n : Nat} (hk : c.nq ≤ n) : ∀ (xs : List Inst), (∀ x ∈ xs, x ∈ c.data) →
    ∀ f, ∀ i < 2 ^ n, evol n xs f i = evol c.nq xs (block c.nq i f) (i % 2 ^ c.nq) := by
  have hp : 0 < 2 ^ c.nq := Nat.two_pow_pos c.nq
  intro xs
  induction xs with
  | nil =>
    intro _ f i hi
    show f i = f (i / 2 ^ c.nq * 2 ^ c.nq + i % 2 ^ c.nq)
    rw [Nat.div_add_mod']
  | cons x xs ih =>
    intro hs f i hi
    have ih := ih fun y hy => hs y (by simp [hy])
    rcases mixed_at hc hk (hs x (by simp)) with this | ⟨A, B, hA, hB, _, hAB⟩
    · simp only [evol, this]
      exact ih f i hi
    · simp only [evol, hA, hB]
      rw [ih _ i hi]
      refine evol_congr xs (fun l hl => ?_) _ (Nat.mod_lt _ hp)
      have hbl := block_lt hk hi hl
      show app n B f (i / 2 ^ c.nq * 2 ^ c.nq + l) = _
      rw [app_congr hAB (fun _ _ => rfl) hbl, at_app hk A f hbl]
      have e1 : (i / 2 ^ c.nq * 2 ^ c.nq + l) % 2 ^ c.nq = l := by
        rw [Nat.add_comm, Nat.add_mul_mod_self_right, Nat.mod_eq_of_lt hl]
      have e2 : (i / 2 ^ c.nq * 2 ^ c.nq + l) / 2 ^ c.nq = i / 2 ^ c.nq := by
        rw [Nat.add_comm, Nat.add_mul_div_right _ _ hp, Nat.div_eq_of_lt hl, Nat.zero_add]
      unfold block
      rw [e1, e2]

theorem expect_gates' {ms : List (Mat ℝ)} {c : Circ} (hc : MixedCirc ms c) {n : Nat} (hk : c.nq ≤ n) (φ : (Nat → Bool) → ℝ) (post : List Inst) :
    ∀ (xs : List Inst), (∀ x ∈ xs, x ∈ c.data) → ∀ (f : Nat → CR) (val : Nat → Bool),
      expect n φ (xs ++ post) f val = expect n φ post (evol n xs f) val := by
  intro xs
  induction xs with
  | nil => intro _ f val; rfl
  | cons x xs ih =>
    intro hs f val
    have ih := ih fun y hy => hs y (by simp [hy])
    have hg := hc.gates x (hs x (by simp))
    have hen : x.enabled val = true := by unfold Inst.enabled; rw [hg.1]
    rw [List.cons_append]
    conv_lhs => unfold expect
    rw [if_pos hen]
    rcases hg.2 with hop | ⟨g, ctl, hop⟩ | ⟨hd, k, M, hop⟩
    · have : x.oper n = none := by unfold Inst.oper; rw [hop]
      simp only [hop, evol, this]
      exact ih f val
    · obtain ⟨A, B, hA, hB, hAB⟩ := oper_at hk (hc.fine x (hs x (by simp))) hop
      simp only [hop, evol, hB]
      exact ih _ val
    · have : x.oper n = some (onQubits n M x.qargs) := by unfold Inst.oper; rw [hop]
      simp only [hop, evol, this]
      exact ih _ val

theorem expect_merged' {ms : List (Mat ℝ)} {c : Circ} (hc : MixedCirc ms c) {n nc : Nat} (hk : c.nq ≤ n) (φ : (Nat → Bool) → ℝ) {post : List Inst}
    (hpost : ∀ x ∈ post, x.WF n nc) (hd : Nat) (f : Nat → CR) (val : Nat → Bool) :
    expect n φ (mergedInst c hd :: post) f val = expect n φ (c.data ++ post) f val := by
  rw [expect_gates' hc hk φ post c.data (fun _ h => h), ← expect_phased n φ c.phase post (evol n c.data f)]
  have hp : 0 < 2 ^ c.nq := Nat.two_pow_pos c.nq
  rw [expect, if_pos (show (mergedInst c hd).enabled val = true from rfl)]
  show expect n φ post (app n (onQubits n (opMat c) (List.range c.nq)) f) val = _
  refine expect_congr φ post hpost val fun i hi => ?_
  rw [app_congr (fun a ha b hb => onQubits_range (opMat c) ha hb) (fun _ _ => rfl) hi, at_app hk _ f hi,
    opMat_app _ (Nat.mod_lt _ hp)]
  unfold phased
  rw [evol_block' hc hk c.data (fun _ h => h) f i hi]

end QDD.Py
