import Verif.Safe.Mat
/-!
# Memory safety without exact arithmetic: products of matrices
-/

set_option linter.unusedSectionVars false
set_option linter.unusedVariables false
set_option linter.unusedSimpArgs false

namespace QDD
namespace Safe
open RoundW Prog
variable {W : Type} [WOps W] [RoundW W] {env : Env W}

/-! ## Buckets -/

theorem BHas.nil {l r y} : ¬ BHas ([] : List (PEnt W)) l r y := fun ⟨_, h, _⟩ => by cases h

theorem BHas.cons {e : PEnt W} {b : List (PEnt W)} {l r y} :
    BHas (e :: b) l r y ↔ (e.valid = true ∧ e.lhs = l ∧ e.rhs = r ∧ e.res = y) ∨ BHas b l r y := by
  constructor
  · rintro ⟨x, hx, h⟩
    rcases List.mem_cons.1 hx with rfl | hx
    · exact .inl h
    · exact .inr ⟨x, hx, h⟩
  · rintro (h | ⟨x, hx, h⟩)
    · exact ⟨e, List.mem_cons_self, h⟩
    · exact ⟨x, List.mem_cons_of_mem _ hx, h⟩

theorem bucketFind_has {N : Type} [TNode N] {mem : Nat → Option N} {l r : Option Nat} : ∀ {b : List (PEnt W)},
    (∀ y, BHas b l r y → ∃ x, y = some x ∧ ∃ v, evar mem x.n = .ok v ∧ -1 ≤ v) →
    ∃ o b', bucketFind mem l r b = .ok (o, b') ∧ (∀ l' r' y, BHas b' l' r' y ↔ BHas b l' r' y) ∧
      b'.length = b.length ∧ (o = none → ∀ y, ¬ BHas b l r y) ∧ (∀ x, o = some x → BHas b l r (some x))
  | [], h => ⟨none, [], rfl, fun _ _ _ => Iff.rfl, rfl, fun _ _ => BHas.nil, fun x hx => by cases hx⟩
  | e :: es, h => by
    unfold bucketFind
    by_cases hm : (e.valid && e.lhs == l && e.rhs == r) = true
    · rw [if_pos hm]
      simp only [Bool.and_eq_true, beq_iff_eq] at hm
      obtain ⟨⟨hv, hl⟩, hr⟩ := hm
      obtain ⟨x, hx, v, hv', hv2⟩ := h e.res (BHas.cons.2 (.inl ⟨hv, hl, hr, rfl⟩))
      have : v ≠ -2 := by omega
      simp only [hx, hv', if_pos this]
      refine ⟨_, _, rfl, fun l' r' y => ?_, by simp, fun h => (by cases h), fun y hy => ?_⟩
      · rw [BHas.cons, BHas.cons]; simp only [hx]
      · cases hy; exact BHas.cons.2 (.inl ⟨hv, hl, hr, hx⟩)
    · rw [if_neg hm]
      simp only [Bool.and_eq_true, beq_iff_eq] at hm
      obtain ⟨o, b', h1, h2, h3, h4, h5⟩ := bucketFind_has (b := es) fun y hy => h y (BHas.cons.2 (.inr hy))
      simp only [h1]
      refine ⟨o, e :: b', rfl, fun l' r' y => ?_, by simp [h3], fun ho y hy => ?_, fun x hx => BHas.cons.2 (.inr (h5 x hx))⟩
      · rw [BHas.cons, BHas.cons, h2]
      · rcases BHas.cons.1 hy with hy | hy
        · exact hm ⟨⟨hy.1, hy.2.1⟩, hy.2.2.1⟩
        · exact h4 ho y hy

theorem putNull_has {l r : Option Nat} {x : Edge W} : ∀ {b b' : List (PEnt W)}, putNull l r x b = some b' →
    b'.length = b.length ∧ BHas b' l r (some x) ∧
      ∀ l' r' y, BHas b' l' r' y → BHas b l' r' y ∨ (l' = l ∧ r' = r ∧ y = some x)
  | [], _, h => by cases h
  | e :: es, b', h => by
    unfold putNull at h
    split at h
    · cases h
      refine ⟨by simp, BHas.cons.2 (.inl ⟨rfl, rfl, rfl, rfl⟩), fun l' r' y hy => ?_⟩
      rcases BHas.cons.1 hy with ⟨_, a, b, c⟩ | hy
      · exact .inr ⟨a.symm, b.symm, c.symm⟩
      · exact .inl (BHas.cons.2 (.inr hy))
    · cases hp : putNull l r x es with
      | none => rw [hp] at h; cases h
      | some b'' =>
        rw [hp] at h; cases h
        obtain ⟨h1, h2, h3⟩ := putNull_has hp
        refine ⟨by simp [h1], BHas.cons.2 (.inr h2), fun l' r' y hy => ?_⟩
        rcases BHas.cons.1 hy with hy | hy
        · exact .inl (BHas.cons.2 (.inl hy))
        · exact (h3 l' r' y hy).imp (fun h => BHas.cons.2 (.inr h)) id

theorem minPicked_lt {b : List (PEnt W)} (h : b ≠ []) : minPicked b < b.length := by
  cases b with
  | nil => exact (h rfl).elim
  | cons e es =>
    unfold minPicked
    have : ∀ (es : List (PEnt W)) (acc : Nat × Nat × Int), acc.2.1 ≤ acc.1 →
        (es.foldl (fun (acc : Nat × Nat × Int) x =>
          if x.picked < acc.2.2 then (acc.1 + 1, acc.1 + 1, x.picked) else (acc.1 + 1, acc.2.1, acc.2.2)) acc).2.1 ≤
          acc.1 + es.length := by
      intro es
      induction es with
      | nil => intro acc h; simpa using h
      | cons x xs ih =>
        intro acc h
        rw [List.foldl_cons]
        refine (ih _ ?_).trans ?_
        · split
          · exact le_refl _
          · exact Nat.le_succ_of_le h
        · split <;> simp only [List.length_cons] <;> omega
    have h2 := this es (0, 0, e.picked) (le_refl _)
    simp only [List.length_cons]
    omega

theorem bucketSet_has {l r : Option Nat} {x : Edge W} {b : List (PEnt W)} (hb : b ≠ []) :
    bucketSet l r x b ≠ [] ∧ BHas (bucketSet l r x b) l r (some x) ∧
      ∀ l' r' y, BHas (bucketSet l r x b) l' r' y → BHas b l' r' y ∨ (l' = l ∧ r' = r ∧ y = some x) := by
  unfold bucketSet
  split
  · next b' h =>
    obtain ⟨h1, h2, h3⟩ := putNull_has h
    refine ⟨fun h => ?_, h2, h3⟩
    rw [h] at h1
    exact hb (List.length_eq_zero_iff.1 h1.symm)
  · refine ⟨by simpa using hb, ⟨PEnt.put l r x, ?_, rfl, rfl, rfl, rfl⟩, fun l' r' y ⟨e, he, hv⟩ => ?_⟩
    · exact List.mem_iff_getElem.2 ⟨minPicked b, by simpa using minPicked_lt hb, by simp⟩
    · rcases List.mem_or_eq_of_mem_set he with h | rfl
      · exact .inl ⟨e, h, hv⟩
      · exact .inr ⟨hv.2.1.symm, hv.2.2.1.symm, hv.2.2.2.symm⟩

/-! ## The product cache -/

/-- Thread 0's product cache holds an entry for `(l, r)` at this place. -/
def Has (s : St W) (lv : Int) (key : Nat) (l r : Option Nat) (y : Option (Edge W)) : Prop :=
  ∃ b, s.cm 0 lv key = some b ∧ BHas b l r y

variable (env) in
/-- Where the entries of left operand `lp` live. -/
def At (s : St W) (lp : Nat) (v : Int) : Prop := evar s.mt.mem (some lp) = .ok v ∧ 0 ≤ v ∧ v < NQUBITS

theorem at_of {s : St W} (hi : Inv env s) {lp : Nat} (h : MReg env s (some lp)) : ∃ v, At s lp v := by
  obtain ⟨v, h1, h2, h3, h4, _⟩ := h.evar hi
  exact ⟨v, h1, h4 (by simp), h3⟩

theorem At.ext {s s' : St W} (he : Grow env s s') {lp v} (hr : MReg env s (some lp)) (h : At s lp v) : At s' lp v := by
  refine ⟨?_, h.2⟩
  rcases hr with hr | ⟨p, nd, e, hr⟩
  · cases hr
  · cases e
    have := h.1
    simp only [evar, hr.1] at this
    simp only [evar, (he.2 _ _ hr).1]
    exact this

theorem bucket_of {s : St W} (hi : Inv env s) (v : Int) (key : Nat) :
    BOk (PMEnt env s) ((s.cm 0 v key).getD (freshBucket W (env.junkMM v key))) ∧
    BUni ((s.cm 0 v key).getD (freshBucket W (env.junkMM v key))) ∧
    ∀ l' r' y, BHas ((s.cm 0 v key).getD (freshBucket W (env.junkMM v key))) l' r' y ↔ Has s v key l' r' y := by
  cases hc : s.cm 0 v key with
  | none =>
    have hf : ∀ l' r' y, ¬ BHas (freshBucket W (env.junkMM v key)) l' r' y := by
      rintro l' r' y ⟨e, he, hv, _⟩
      unfold freshBucket at he
      obtain ⟨i, _, rfl⟩ := List.mem_map.1 he
      cases hv
    have hn : ∀ l' r' y, ¬ Has s v key l' r' y := by
      rintro l' r' y ⟨b, hb, _⟩
      rw [hc] at hb; cases hb
    exact ⟨BOk.fresh _, ⟨by simp [freshBucket], fun l' r' => ⟨WOps.zero, none, fun y hy => (hf _ _ _ hy).elim⟩⟩,
      fun l' r' y => ⟨fun h => (hf _ _ _ h).elim, fun h => (hn _ _ _ h).elim⟩⟩
  | some b =>
    exact ⟨hi.cm _ _ _ _ hc, hi.uni _ _ _ _ hc, fun l' r' y => ⟨fun h => ⟨b, hc, h⟩,
      fun ⟨b', hb', h⟩ => by rw [hc] at hb'; cases hb'; exact h⟩⟩

theorem findPM_run {s : St W} (hi : Inv env s) {lp : Nat} {r : Option Nat} {v} (hl : MReg env s (some lp))
    (hr : MReg env s r) (hv : At s lp v) :
    ∃ o s', (findPM env lp r).run s = .ok ((o, 0), s') ∧ Inv env s' ∧ Grow env s s' ∧ Grow env s' s ∧
      (∀ lv key l' r' y, Has s' lv key l' r' y ↔ Has s lv key l' r' y) ∧
      (o = none → ∀ y, ¬ Has s v (env.mur lp % NBUCKETS) (some lp) r y) ∧
      (∀ x, o = some x → Has s v (env.mur lp % NBUCKETS) (some lp) r (some x)) := by
  have hrng : ¬ (v < 0 ∨ (NQUBITS : Int) ≤ v) := by have := hv.2; omega
  have key : ∃ o b, (s.cm 0).find s.mt.mem s.mt.mem env.mur env.junkMM lp r = .ok (o,
      upd (s.cm 0) v (upd (s.cm 0 v) (env.mur lp % NBUCKETS) (some b))) ∧
      BOk (PMEnt env s) b ∧ BUni b ∧
      (∀ l' r' y, BHas b l' r' y ↔ Has s v (env.mur lp % NBUCKETS) l' r' y) ∧
      (o = none → ∀ y, ¬ Has s v (env.mur lp % NBUCKETS) (some lp) r y) ∧
      (∀ x, o = some x → Has s v (env.mur lp % NBUCKETS) (some lp) r (some x)) := by
    unfold PCache.find
    simp only [hv.1, if_neg hrng]
    cases hc : s.cm 0 v (env.mur lp % NBUCKETS) with
    | none =>
      have hf : ∀ l' r' y, ¬ BHas (freshBucket W (env.junkMM v (env.mur lp % NBUCKETS))) l' r' y := by
        rintro l' r' y ⟨e, he, hv, _⟩
        unfold freshBucket at he
        obtain ⟨i, _, rfl⟩ := List.mem_map.1 he
        cases hv
      have hn : ∀ l' r' y, ¬ Has s v (env.mur lp % NBUCKETS) l' r' y := by
        rintro l' r' y ⟨b, hb, _⟩
        rw [hc] at hb; cases hb
      exact ⟨none, _, rfl, BOk.fresh _, ⟨by simp [freshBucket], fun l' r' => ⟨WOps.zero, none, fun y hy => (hf _ _ _ hy).elim⟩⟩,
        fun l' r' y => ⟨fun h => (hf _ _ _ h).elim, fun h => (hn _ _ _ h).elim⟩, fun _ y => hn _ _ _,
        fun e h => by cases h⟩
    | some b =>
      have hh : ∀ l' r' y, BHas b l' r' y ↔ Has s v (env.mur lp % NBUCKETS) l' r' y := fun l' r' y =>
        ⟨fun h => ⟨b, hc, h⟩, fun ⟨b', hb', h⟩ => by rw [hc] at hb'; cases hb'; exact h⟩
      obtain ⟨o, b', h1, h2, h3, h4, h5⟩ := bucketFind_has (mem := s.mt.mem) (l := some lp) (r := r) (b := b)
        (fun y ⟨e, he, hv, e1, e2, e3⟩ => by
          obtain ⟨x, hx, hp⟩ := hi.cm _ _ _ _ hc e he hv
          refine ⟨x, by rw [← e3, hx], ?_⟩
          obtain ⟨v, h1, h2, _⟩ := (hp.2.2.reg hi hp.1 hp.2.1).evar hi
          exact ⟨v, h1, h2⟩)
      simp only [h1]
      refine ⟨o, b', rfl, ?_, ?_, fun l' r' y => (h2 l' r' y).trans (hh l' r' y), fun ho y hy => h4 ho y ((hh _ _ _).2 hy),
        fun x hx => (hh _ _ _).1 (h5 x hx)⟩
      · intro e he hev
        obtain ⟨e', he', hv', a1, a2, a3⟩ := (h2 e.lhs e.rhs e.res).1 ⟨e, he, hev, rfl, rfl, rfl⟩
        obtain ⟨x, hx, hp⟩ := hi.cm _ _ _ _ hc e' he' hv'
        refine ⟨x, by rw [← a3, hx], ?_⟩
        rw [← a1, ← a2]; exact hp
      · obtain ⟨u1, u2⟩ := hi.uni _ _ _ _ hc
        refine ⟨fun h => u1 (List.length_eq_zero_iff.1 (by rw [← h3, h]; rfl)), fun l' r' => ?_⟩
        obtain ⟨w, n, hwn⟩ := u2 l' r'
        exact ⟨w, n, fun y hy => hwn y ((h2 _ _ _).1 hy)⟩
  obtain ⟨o, b, ho, hb, hu, hh, hn, hsome⟩ := key
  obtain ⟨hi', he'⟩ := hi.caches (s' := { s with cm := (upd s.cm 0 (upd (s.cm 0) v (upd (s.cm 0 v) (env.mur lp % NBUCKETS) (some b)))) }) rfl rfl hi.av hi.am hi.cv
    (fun tid lv key e h => by
      rcases upd3_some h with rfl | h
      · exact hb
      · exact hi.cm _ _ _ _ h)
    (fun tid lv key e h => by
      rcases upd3_some h with rfl | h
      · exact hu
      · exact hi.uni _ _ _ _ h)
  refine ⟨o, _, by rw [findPM, run_atom]; simp only [ho], hi', he', ⟨UTable.Ext.refl _, UTable.Ext.refl _⟩, ?_, hn, hsome⟩
  intro lv key l' r' y
  by_cases h1 : lv = v
  · subst h1
    by_cases h2 : key = env.mur lp % NBUCKETS
    · subst h2
      rw [← hh]
      unfold Has
      simp
    · unfold Has
      simp [upd_ne, h2]
  · unfold Has
    simp [upd_ne, h1]

theorem setPM_run {s : St W} (hi : Inv env s) {lp : Nat} {r : Option Nat} {v} {res : Edge W} (hl : MReg env s (some lp))
    (hr : MReg env s r) (hv : At s lp v) (hres : Cov env s (some lp) r res.n)
    {w : W} {n : Option Nat}
    (hold : ∀ y, Has s v (env.mur lp % NBUCKETS) (some lp) r y → ∃ x, y = some x ∧ Cpt w n x) (hnew : Cpt w n res) :
    ∃ s', (setPM env 0 lp r res).run s = .ok ((), s') ∧ Inv env s' ∧ Grow env s s' ∧
      (∀ lv key l' r' y, Has s' lv key l' r' y → Has s lv key l' r' y ∨
        (l' = some lp ∧ r' = r ∧ y = some res)) ∧
      Has s' v (env.mur lp % NBUCKETS) (some lp) r (some res) := by
  have hrng : ¬ (v < 0 ∨ (NQUBITS : Int) ≤ v) := by have := hv.2; omega
  obtain ⟨hbk, ⟨u1, u2⟩, hh⟩ := bucket_of hi v (env.mur lp % NBUCKETS)
  have hset : (s.cm 0).set s.mt.mem env.mur env.junkMM lp r res = .ok (
      upd (s.cm 0) v (upd (s.cm 0 v) (env.mur lp % NBUCKETS) (some (bucketSet (some lp) r res
        ((s.cm 0 v (env.mur lp % NBUCKETS)).getD (freshBucket W (env.junkMM v (env.mur lp % NBUCKETS)))))))) := by
    unfold PCache.set
    simp only [hv.1, if_neg hrng]
  generalize (s.cm 0 v (env.mur lp % NBUCKETS)).getD (freshBucket W (env.junkMM v (env.mur lp % NBUCKETS))) = b at *
  obtain ⟨k1, k2, k3⟩ := bucketSet_has (l := some lp) (r := r) (x := res) u1
  have hbok : BOk (PMEnt env s) (bucketSet (some lp) r res b) :=
    bucketSet_ok ⟨hl, hr, hres⟩ hbk
  have hbu : BUni (bucketSet (some lp) r res b) := by
    refine ⟨k1, fun l' r' => ?_⟩
    by_cases hm : l' = some lp ∧ r' = r
    · obtain ⟨rfl, rfl⟩ := hm
      refine ⟨w, n, fun y hy => ?_⟩
      rcases k3 _ _ _ hy with hy | ⟨_, _, rfl⟩
      · exact hold y ((hh _ _ _).1 hy)
      · exact ⟨res, rfl, hnew⟩
    · obtain ⟨w', n', hwn⟩ := u2 l' r'
      refine ⟨w', n', fun y hy => ?_⟩
      rcases k3 _ _ _ hy with hy | ⟨a, b, rfl⟩
      · exact hwn y hy
      · exact (hm ⟨a, b⟩).elim
  generalize bucketSet (some lp) r res b = b' at *
  obtain ⟨hi', he'⟩ := hi.caches (s' := { s with cm := (upd s.cm 0 (upd (s.cm 0) v (upd (s.cm 0 v) (env.mur lp % NBUCKETS) (some b')))) }) rfl rfl hi.av hi.am hi.cv
    (fun tid lv key e h => by
      rcases upd3_some h with rfl | h
      · exact hbok
      · exact hi.cm _ _ _ _ h)
    (fun tid lv key e h => by
      rcases upd3_some h with rfl | h
      · exact hbu
      · exact hi.uni _ _ _ _ h)
  refine ⟨_, by rw [setPM, run_atom]; simp only [hset], hi', he', ?_, ⟨b', by simp, k2⟩⟩
  rintro lv key l' r' y ⟨b2, hb2, hy⟩
  by_cases h1 : lv = v
  · subst h1
    by_cases h2 : key = env.mur lp % NBUCKETS
    · subst h2
      simp only [upd_same, Option.some.injEq] at hb2
      subst hb2
      rcases k3 _ _ _ hy with hy | h
      · exact .inl ((hh _ _ _).1 hy)
      · exact .inr h
    · simp only [upd_same, upd_ne _ _ _ h2] at hb2
      exact .inl ⟨b2, hb2, hy⟩
  · simp only [upd_same, upd_ne _ _ _ h1] at hb2
    exact .inl ⟨b2, hb2, hy⟩

/-! ## Products -/

variable (env) in
/-- Only products of matrices below level `k` have been added to the cache. -/
def Fr (k : Nat) (s s' : St W) : Prop :=
  ∀ lv key l r y, Has s' lv key l r y → (∃ y', Has s lv key l r y') ∨ (MLv env s' k l ∧ MLv env s' k r)

theorem Fr.refl (k : Nat) (s : St W) : Fr env k s s := fun _ _ _ _ y h => .inl ⟨y, h⟩

theorem Fr.of_cm {k : Nat} {s s' : St W} (h : s'.cm = s.cm) : Fr env k s s' := fun lv key l r y ⟨b, hb, hy⟩ =>
  .inl ⟨y, b, by rw [← h]; exact hb, hy⟩

theorem Fr.trans {k : Nat} {a b c : St W} (h : Fr env k a b) (h' : Fr env k b c) (he : Grow env b c) : Fr env k a c := by
  intro lv key l r y hy
  rcases h' _ _ _ _ _ hy with ⟨y', hy'⟩ | h2
  · rcases h _ _ _ _ _ hy' with h1 | h1
    · exact .inl h1
    · exact .inr ⟨h1.1.ext he, h1.2.ext he⟩
  · exact .inr h2

theorem Fr.mono {k k' : Nat} {a b : St W} (h : Fr env k a b) (hk : k ≤ k') : Fr env k' a b := fun lv key l r y hy =>
  (h lv key l r y hy).imp id fun h => ⟨h.1.mono hk, h.2.mono hk⟩

/-- `e` stands for weight `w` on node `n`, or is the zero edge when `w` is approximately zero. -/
def Ret (w : W) (n : Option Nat) (e : Edge W) : Prop :=
  (WOps.az w = true ∧ e = zeroE) ∨ (WOps.az w = false ∧ e.n = n ∧ (e.w = w ∨ e.w = snap w))

variable (env) in
/-- The cache answers the product of the unweighted nodes `lp` and `rp` consistently with the result `e`. -/
def Hit (s : St W) (lp rp : Nat) (e : Edge W) : Prop :=
  ∃ v w n, At s lp v ∧ (∃ y, Has s v (env.mur lp % NBUCKETS) (some lp) (some rp) y) ∧
    (∀ y, Has s v (env.mur lp % NBUCKETS) (some lp) (some rp) y → ∃ x, y = some x ∧ Cpt w n x) ∧ Ret w n e

theorem Hit.congr {s s' : St W} {lp rp : Nat} {e : Edge W} (hr : MReg env s (some lp)) (hg : Grow env s s')
    (hh : ∀ lv key l' r' y, Has s' lv key l' r' y ↔ Has s lv key l' r' y) (h : Hit env s lp rp e) : Hit env s' lp rp e := by
  obtain ⟨v, w, n, h1, ⟨y, h2⟩, h3, h4⟩ := h
  exact ⟨v, w, n, h1.ext hg hr, ⟨y, (hh _ _ _ _ _).2 h2⟩, fun y hy => h3 y ((hh _ _ _ _ _).1 hy), h4⟩

theorem Hit.cm {s s' : St W} {lp rp : Nat} {e : Edge W} (hr : MReg env s (some lp)) (hg : Grow env s s')
    (hc : s'.cm = s.cm) (h : Hit env s lp rp e) : Hit env s' lp rp e :=
  h.congr hr hg fun lv key l r y => by unfold Has; rw [hc]

theorem az_snap {w : W} (h : WOps.az w = false) : WOps.az (snap w) = false := by
  unfold snap; split
  · exact az_one
  · exact h

theorem snap_snap (w : W) : snap (snap w) = snap w := by
  have : WOps.aone (WOps.one : W) = true := ae_refl _
  by_cases h : WOps.aone w = true
  · simp only [snap, if_pos h, if_pos this]
  · simp only [snap, if_neg h]

theorem ae_snap (w : W) : WOps.ae (snap w) w = true := by
  unfold snap; split
  · next h => exact ae_symm h
  · exact ae_refl _

theorem Ret.ae {w : W} {n} {e e' : Edge W} (h : Ret w n e) (h' : Ret w n e') :
    (e = zeroE ∧ e' = zeroE) ∨ (WOps.az e.w = false ∧ e.n = e'.n ∧ WOps.ae e.w e'.w = true) := by
  rcases h with ⟨h1, h2⟩ | ⟨h1, h2, h3⟩ <;> rcases h' with ⟨g1, g2⟩ | ⟨g1, g2, g3⟩
  · exact .inl ⟨h2, g2⟩
  · rw [h1] at g1; cases g1
  · rw [h1] at g1; cases g1
  · refine .inr ⟨?_, h2.trans g2.symm, ?_⟩
    · rcases h3 with h3 | h3 <;> rw [h3]
      · exact h1
      · exact az_snap h1
    · rcases h3 with h3 | h3 <;> rcases g3 with g3 | g3 <;> rw [h3, g3]
      · exact ae_refl _
      · exact ae_symm (ae_snap w)
      · exact ae_snap w
      · exact ae_refl _

/-- The value a hit on `x` returns. -/
theorem Cpt.ret {w : W} {n} {x : Edge W} (h : Cpt w n x) :
    Ret w n (if WOps.az x.w = true then zeroE else
      if WOps.az (WOps.mul (WOps.mul x.w WOps.one) WOps.one) = true then zeroE else
        ⟨WOps.mul (WOps.mul x.w WOps.one) WOps.one, x.n⟩) := by
  rw [RoundW.mul_one, RoundW.mul_one]
  rcases h with ⟨h1, h2⟩ | ⟨h1, h2, h3⟩
  · rw [if_pos h2]; exact .inl ⟨h1, rfl⟩
  · have : WOps.az x.w = false := by
      rcases h3 with h3 | h3 <;> rw [h3]
      · exact h1
      · exact az_snap h1
    rw [if_neg (by rw [this]; simp), if_neg (by rw [this]; simp)]
    exact .inr ⟨h1, h2, h3⟩

/-- The value returned after storing `x`. -/
theorem Cpt.ret' {w : W} {n} {x : Edge W} (h : Cpt w n x) :
    Ret w n (if WOps.az (WOps.mul (WOps.mul x.w WOps.one) WOps.one) = true then zeroE else
      if WOps.aone (WOps.mul (WOps.mul x.w WOps.one) WOps.one) = true then ⟨WOps.one, x.n⟩ else
        ⟨WOps.mul (WOps.mul x.w WOps.one) WOps.one, x.n⟩) := by
  rw [RoundW.mul_one, RoundW.mul_one]
  rcases h with ⟨h1, h2⟩ | ⟨h1, h2, h3⟩
  · rw [if_pos h2]; exact .inl ⟨h1, rfl⟩
  · have : WOps.az x.w = false := by
      rcases h3 with h3 | h3 <;> rw [h3]
      · exact h1
      · exact az_snap h1
    rw [if_neg (by rw [this]; simp)]
    have hs : (if WOps.aone x.w = true then (⟨WOps.one, x.n⟩ : Edge W) else ⟨x.w, x.n⟩) = ⟨snap x.w, x.n⟩ := by
      unfold snap; split <;> rfl
    rw [hs]
    refine .inr ⟨h1, h2, .inr ?_⟩
    show snap x.w = snap w
    rcases h3 with h3 | h3 <;> rw [h3]
    exact snap_snap w

/-- A returned edge, stored again. -/
theorem Ret.cpt {w : W} {n} {e : Edge W} (h : Ret w n e) : Cpt w n e := by
  rcases h with ⟨h1, rfl⟩ | h
  · exact .inl ⟨h1, z_az z_zero⟩
  · exact .inr h

variable (env) in
/-- What a run of `mm_multiply2` establishes. -/
def MulPost (k : Nat) (l r : Edge W) (s : St W) (e : Edge W) (s' : St W) : Prop :=
  Inv env s' ∧ Grow env s s' ∧ Cov env s' l.n r.n e.n ∧ Fr env k s s' ∧
    ∀ lp rp, l = ⟨WOps.one, some lp⟩ → r = ⟨WOps.one, some rp⟩ → Hit env s' lp rp e

theorem mMul_skip {s : St W} (hi : Inv env s) {k : Nat} {e : Edge W} {nd} (h : MLv env s (k + 1) e.n)
    (hr : ReadM env s e.n nd) :
    (MLv env s k e.n → ∀ r c, mMulArg k nd e r c = if r ≠ c then zeroE else ⟨WOps.one, e.n⟩) ∧ nd.v ≤ k := by
  rcases hr.cases h with ⟨p, h1, h2, h3⟩ | ⟨h1, h2⟩
  · refine ⟨fun h => ?_, by omega⟩
    exfalso
    rw [h1] at h
    rcases h with h | ⟨q, nd', e', h4, h5⟩
    · cases h
    · cases e'
      rw [reg_fun h2 h4] at h3
      omega
  · refine ⟨fun _ r c => by unfold mMulArg; rw [if_neg h2], ?_⟩
    rcases hr with ⟨_, h⟩ | ⟨p, hp, h⟩
    · omega
    · rw [hp] at h1
      rcases h1 with h1 | ⟨q, nd', e', h4, h5⟩
      · cases h1
      · cases e'; rw [reg_fun h h4]; omega

theorem mmMul2_zeroL (k : Nat) (r : Edge W) : mmMul2 env k zeroE r = pure zeroE := by
  unfold mmMul2; simp [eeq_refl]

theorem mmMul2_zeroR (k : Nat) (l : Edge W) : mmMul2 env k l zeroE = pure zeroE := by
  unfold mmMul2; simp [eeq_refl]

theorem eeq_zero_az {e : Edge W} (h : eeq e zeroE = true) : WOps.az e.w = true := by
  simp only [eeq, Bool.and_eq_true] at h
  rw [← ae_zero]; exact h.1

theorem mmAdd2_zeroR {k : Nat} {e : Edge W} (h : e = zeroE ∨ WOps.az e.w = false) :
    mmAdd2 env k e zeroE = pure e := by
  rcases h with rfl | h
  · exact mmAdd2_zero k
  · have : ¬ eeq e zeroE = true := fun h' => by rw [eeq_zero_az h'] at h; cases h
    cases k <;> simp [mmAdd2, eeq_refl, this]

variable (env) in
/-- `mmMul2` past its early returns (dd.cpp 973-1043). -/
def mulBody (k : Nat) (lp rp : Nat) (l r : Edge W) : P W (Edge W) := do
  let (res, c) ← findPM env lp (some rp)
  match res with
  | some e => if WOps.az e.w then pure zeroE else
    let w := WOps.mul (WOps.mul e.w l.w) r.w
    if WOps.az w then pure zeroE else pure ⟨w, e.n⟩
  | none => do
    let ln ← readM l.n
    let rn ← readM r.n
    if ln.v ≤ k ∧ rn.v ≤ k then do
      let a := mMulArg k ln l
      let b := mMulArg k rn r
      let p ← mmMul2 env k (a false false) (b false false)
      let q ← mmMul2 env k (a false true) (b true false)
      let e0 ← mmAdd2 env k p q
      let p ← mmMul2 env k (a false false) (b false true)
      let q ← mmMul2 env k (a false true) (b true true)
      let e1 ← mmAdd2 env k p q
      let p ← mmMul2 env k (a true false) (b false false)
      let q ← mmMul2 env k (a true true) (b true false)
      let e2 ← mmAdd2 env k p q
      let p ← mmMul2 env k (a true false) (b false true)
      let q ← mmMul2 env k (a true true) (b true true)
      let e3 ← mmAdd2 env k p q
      let res ← mkM env k e0 e1 e2 e3
      setPM env c lp (some rp) res
      let w := WOps.mul (WOps.mul res.w l.w) r.w
      if WOps.az w then pure zeroE else
      if WOps.aone w then pure ⟨WOps.one, res.n⟩ else pure ⟨w, res.n⟩
    else fail .assert

theorem mmMul2_run : ∀ {k : Nat} {s : St W} {l r : Edge W},
    k ≤ NQUBITS → Inv env s → MLv env s k l.n → MLv env s k r.n →
    Runs (mmMul2 env k l r) s (MulPost env k l r s) := by
  intro k
  have hone : ∀ {x : Option Nat}, ¬ eeq (⟨WOps.one, x⟩ : Edge W) zeroE = true := fun {x} h => by
    have : WOps.az (WOps.one : W) = true := eeq_zero_az h
    rw [az_one] at this; cases this
  induction k with
  | zero =>
    intro s l r hk hi hl hr
    have h1 := hl.term hi
    have h2 := hr.term hi
    have hno : ∀ lp rp, l = ⟨WOps.one, some lp⟩ → r = ⟨WOps.one, some rp⟩ → ∀ e s', Hit env s' lp rp e :=
      fun lp rp h => by rw [h] at h1; cases h1
    by_cases h0 : (eeq l zeroE || eeq r zeroE) = true
    · exact ⟨zeroE, s, by unfold mmMul2; rw [if_pos h0]; rfl, hi, Grow.refl env s, fun _ _ _ => .inl rfl, Fr.refl 0 s,
        fun lp rp a b => hno lp rp a b _ _⟩
    · exact ⟨⟨WOps.mul r.w l.w, r.n⟩, s, by unfold mmMul2; rw [if_neg h0, h1]; rfl, hi, Grow.refl env s, fun _ _ h => h, Fr.refl 0 s,
        fun lp rp a b => hno lp rp a b _ _⟩
  | succ k ih =>
    intro s l r hk hi hl hr
    by_cases h0 : (eeq l zeroE || eeq r zeroE) = true
    · refine ⟨zeroE, s, by unfold mmMul2; rw [if_pos h0]; rfl, hi, Grow.refl env s, fun _ _ _ => .inl rfl, Fr.refl _ s,
        fun lp rp a b => ?_⟩
      exfalso
      rw [a, b] at h0
      simp only [Bool.or_eq_true] at h0
      exact h0.elim hone hone
    cases hln : l.n with
    | none =>
      refine ⟨⟨WOps.mul r.w l.w, r.n⟩, s, by unfold mmMul2; rw [if_neg h0, hln]; rfl, hi, Grow.refl env s, fun _ _ h => h, Fr.refl _ s,
        fun lp rp a b => ?_⟩
      rw [a] at hln; cases hln
    | some lp =>
    cases hrn : r.n with
    | none =>
      refine ⟨⟨WOps.mul l.w r.w, l.n⟩, s, by unfold mmMul2; rw [if_neg h0, hln, hrn]; rfl, hi, Grow.refl env s,
        fun _ h _ => h, Fr.refl _ s, fun lp rp a b => ?_⟩
      rw [b] at hrn; cases hrn
    | some rp =>
    by_cases hz : (WOps.az l.w || WOps.az r.w) = true
    · refine ⟨zeroE, s, by unfold mmMul2; rw [if_neg h0, hln, hrn]; simp only; rw [if_pos hz]; rfl, hi, Grow.refl env s, fun _ _ _ => .inl rfl, Fr.refl _ s,
        fun lp rp a b => ?_⟩
      exfalso
      rw [a, b] at hz
      simp [az_one] at hz
    have hk' : k < NQUBITS := hk
    have hk0 : k ≤ NQUBITS := Nat.le_of_lt hk
    have hunf : mmMul2 env (k + 1) l r = mulBody env k lp rp l r := by
      unfold mmMul2 mulBody; rw [if_neg h0]; simp only [hln, hrn]; rw [if_neg hz]; rfl
    have hl' : MReg env s (some lp) := hln ▸ hl.reg
    have hr' : MReg env s (some rp) := hrn ▸ hr.reg
    obtain ⟨v, hv⟩ := at_of hi hl'
    obtain ⟨o, s1, ho, i1, g1, g1', hh, hnone, hsome⟩ := findPM_run hi hl' hr' hv
    have hl1 := hl.ext g1
    have hr1 := hr.ext g1
    have fr1 : Fr env (k + 1) s s1 := fun lv key a b y hy => .inl ⟨y, (hh _ _ _ _ _).1 hy⟩
    cases o with
    | some x =>
      have hx := (hh _ _ _ _ _).2 (hsome x rfl)
      obtain ⟨b, hb, e, he, ev, e1, e2, e3⟩ := hx
      obtain ⟨x', hx', hp⟩ := i1.cm _ _ _ _ hb e he ev
      rw [e3] at hx'
      cases hx'
      rw [e1, e2] at hp
      refine ⟨if WOps.az x.w = true then zeroE else
        if WOps.az (WOps.mul (WOps.mul x.w l.w) r.w) = true then zeroE else
          ⟨WOps.mul (WOps.mul x.w l.w) r.w, x.n⟩, s1, ?_, i1, g1, ?_, fr1, ?_⟩
      · rw [hunf]; unfold mulBody; rw [run_ok ho]
        simp only
        split
        · rfl
        · split <;> rfl
      · split
        · exact fun _ _ _ => .inl rfl
        split
        · exact fun _ _ _ => .inl rfl
        · exact hln ▸ hrn ▸ hp.2.2
      · rintro lp' rp' rfl rfl
        cases hln
        cases hrn
        obtain ⟨w, n, hwn⟩ := (i1.uni _ _ _ _ hb).2 (some lp) (some rp)
        have hall : ∀ y, Has s1 v (env.mur lp % NBUCKETS) (some lp) (some rp) y → ∃ x, y = some x ∧ Cpt w n x := by
          rintro y ⟨b', hb', hy⟩
          rw [hb] at hb'
          cases hb'
          exact hwn y hy
        obtain ⟨x', hx', hc⟩ := hall _ ⟨b, hb, e, he, ev, e1, e2, e3⟩
        cases hx'
        exact ⟨v, w, n, hv.ext g1 hl', ⟨_, b, hb, e, he, ev, e1, e2, e3⟩, hall, hc.ret⟩
    | none =>
      have hnone1 : ∀ y, ¬ Has s1 v (env.mur lp % NBUCKETS) (some lp) (some rp) y := fun y hy =>
        hnone rfl y ((hh _ _ _ _ _).1 hy)
      obtain ⟨nl, hrl, hnl⟩ := readM_run hl1.reg
      obtain ⟨nr, hrr, hnr⟩ := readM_run hr1.reg
      have ol := mMul_child i1 hl1 hnl
      have or := mMul_child i1 hr1 hnr
      obtain ⟨skl, vl⟩ := mMul_skip i1 hl1 hnl
      obtain ⟨skr, vr⟩ := mMul_skip i1 hr1 hnr
      -- one block
      have blk : ∀ (a b : Bool) (t : St W), Inv env t → Grow env s1 t →
          ∃ p q e t1 t2 t3, (mmMul2 env k (mMulArg k nl l a false) (mMulArg k nr r false b)).run t = .ok (p, t1) ∧
            (mmMul2 env k (mMulArg k nl l a true) (mMulArg k nr r true b)).run t1 = .ok (q, t2) ∧
            (mmAdd2 env k p q).run t2 = .ok (e, t3) ∧ Inv env t3 ∧ Grow env t t3 ∧ Fr env k t t3 ∧ MLv env t3 k e.n ∧
            MulPost env k (mMulArg k nl l a false) (mMulArg k nr r false b) t p t1 := by
        intro a b t hit het
        obtain ⟨p, t1, r1, P1⟩ := ih hk0 hit ((ol a false).ext het) ((or false b).ext het)
        obtain ⟨j1, f1, c1, fr1, _⟩ := id P1
        have het1 := het.trans f1
        obtain ⟨q, t2, r2, j2, f2, c2, fr2, _⟩ := ih hk0 j1 ((ol a true).ext het1) ((or true b).ext het1)
        have het2 := het1.trans f2
        obtain ⟨e, t3, r3, j3, f3, c3, m3, _⟩ := mmAdd2_run hk0 j2
          ((c1 k ((ol _ _).ext het1) ((or _ _).ext het1)).ext f2) (c2 k ((ol _ _).ext het2) ((or _ _).ext het2))
        refine ⟨p, q, e, t1, t2, t3, r1, r2, r3, j3, f1.trans (f2.trans f3),
          (fr1.trans fr2 f2).trans (Fr.of_cm m3) f3,
          c3 k ((c1 k ((ol _ _).ext het1) ((or _ _).ext het1)).ext (f2.trans f3))
            ((c2 k ((ol _ _).ext het2) ((or _ _).ext het2)).ext f3), P1⟩
      obtain ⟨p0, q0, e0, t01, t02, s4, r01, r02, r03, i4, g4, fr4, hm0, P0⟩ := blk false false s1 i1 (Grow.refl env s1)
      obtain ⟨p1, q1, e1, t11, t12, s5, r11, r12, r13, i5, g5, fr5, hm1, _⟩ := blk false true s4 i4 g4
      have g15 := g4.trans g5
      obtain ⟨p2, q2, e2, t21, t22, s6, r21, r22, r23, i6, g6, fr6, hm2, _⟩ := blk true false s5 i5 g15
      have g16 := g15.trans g6
      obtain ⟨p3, q3, e3, t31, t32, s7, r31, r32, r33, i7, g7, fr7, hm3, P3⟩ := blk true true s6 i6 g16
      have g17 := g16.trans g7
      have g57 := g6.trans g7
      have g47 := g5.trans g57
      obtain ⟨res, s8, rm, hmk, i8, g8, hres, m8⟩ := mkM_run i7 hk' (hm0.ext g47) (hm1.ext g57) (hm2.ext g7) hm3
      have g18 := g17.trans g8
      have fr18 : Fr env k s1 s8 := by
        have a := fr4.trans fr5 g5
        have b := a.trans fr6 g6
        have c := b.trans fr7 g7
        exact c.trans (Fr.of_cm m8) g8
      have hl8 : MReg env s8 (some lp) := (hl'.ext g1).ext g18
      have hr8 : MReg env s8 (some rp) := (hr'.ext g1).ext g18
      have hv8 : At s8 lp v := (hv.ext g1 hl').ext g18 (hl'.ext g1)
      have main : Cov env s8 l.n r.n res.n ∧ ∃ w n,
          (∀ y, Has s8 v (env.mur lp % NBUCKETS) (some lp) (some rp) y → ∃ x, y = some x ∧ Cpt w n x) ∧ Cpt w n res := by
        by_cases hb : MLv env s1 k l.n ∧ MLv env s1 k r.n
        · have sl := skl hb.1
          have sr := skr hb.2
          rw [hln] at sl
          rw [hrn] at sr
          simp only [sl, sr, ne_eq, not_true_eq_false, if_false, Bool.false_eq_true, not_false_eq_true, if_true,
            Bool.true_eq_false] at r01 r02 r11 r12 r21 r22 r31 r32 P0 P3
          simp only [mmMul2_zeroL, mmMul2_zeroR] at r02 r11 r12 r21 r22 r31
          cases r02
          cases r11
          cases r12
          cases r21
          cases r22
          cases r31
          rw [mmAdd2_zero] at r13 r23
          cases r13
          cases r23
          -- the first product
          obtain ⟨j0, f0, c0, _, hit0⟩ := P0
          obtain ⟨v0, w, n, hv0, ⟨y0, hy0⟩, hall, hret⟩ := hit0 lp rp rfl rfl
          have hvv : v0 = v := by
            have a := hv0.1
            have b := ((hv.ext g1 hl').ext f0 (hl'.ext g1)).1
            rw [a] at b; cases b; rfl
          subst hvv
          have hp0 : p0 = zeroE ∨ WOps.az p0.w = false := by
            rcases hret.ae hret with h | h
            · exact .inl h.1
            · exact .inr h.1
          rw [mmAdd2_zeroR hp0] at r03
          cases r03
          -- the last product is answered from the cache
          have hlk : MReg env t01 (some lp) := (hl'.ext g1).ext g4
          have hrk : MReg env t01 (some rp) := (hr'.ext g1).ext g4
          obtain ⟨o, t', ho', i', gg, gg', hh', hn', hs'⟩ := findPM_run i4 hlk hrk hv0
          cases o with
          | none => exact (hn' rfl y0 hy0).elim
          | some x =>
          obtain ⟨x', hx', hcx⟩ := hall _ (hs' x rfl)
          cases hx'
          have hk1 : ∃ k1, k = k1 + 1 := by
            cases k with
            | zero => have := hb.1.term i1; rw [hln] at this; cases this
            | succ k1 => exact ⟨k1, rfl⟩
          obtain ⟨k1, rfl⟩ := hk1
          have hq : (mmMul2 env (k1 + 1) ⟨WOps.one, some lp⟩ ⟨WOps.one, some rp⟩).run t01 =
              .ok (if WOps.az x.w = true then zeroE else
                if WOps.az (WOps.mul (WOps.mul x.w WOps.one) WOps.one) = true then zeroE else
                  ⟨WOps.mul (WOps.mul x.w WOps.one) WOps.one, x.n⟩, t') := by
            unfold mmMul2
            rw [if_neg (by simp only [Bool.or_eq_true, not_or]; exact ⟨hone, hone⟩)]
            simp only
            rw [if_neg (by simp [az_one]), run_ok ho']
            simp only
            split
            · rfl
            · split <;> rfl
          rw [hq] at r32
          simp only [Except.ok.injEq, Prod.mk.injEq] at r32
          obtain ⟨rfl, rfl⟩ := r32
          have hret3 := hcx.ret
          generalize (if WOps.az x.w = true then zeroE else
                if WOps.az (WOps.mul (WOps.mul x.w WOps.one) WOps.one) = true then zeroE else
                  (⟨WOps.mul (WOps.mul x.w WOps.one) WOps.one, x.n⟩ : Edge W)) = q3 at *
          have hq3 : q3 = zeroE ∨ WOps.az q3.w = false := by
            rcases hret3.ae hret3 with h | h
            · exact .inl h.1
            · exact .inr h.1
          have hadd : mmAdd2 env (k1 + 1) zeroE q3 = pure q3 := by
            simp [mmAdd2, eeq_refl]
          rw [hadd] at r33
          cases r33
          have hres0 : res = p0 ∧ s8 = s7 := by
            rcases hret.ae hret3 with ⟨rfl, rfl⟩ | ⟨_, h2, h3⟩
            · rw [makeM_strip rfl (ae_refl _)] at hmk
              cases hmk; exact ⟨rfl, rfl⟩
            · rw [makeM_strip h2 h3] at hmk
              cases hmk; exact ⟨rfl, rfl⟩
          obtain ⟨rfl, rfl⟩ := hres0
          refine ⟨?_, w, n, fun y hy => hall y ((hh' _ _ _ _ _).1 hy), hret.cpt⟩
          have := c0.ext gg ((hl'.ext g1).ext g4) ((hr'.ext g1).ext g4)
          rw [hln, hrn]
          exact this
        · have hnot : ¬ (MLv env s8 k l.n ∧ MLv env s8 k r.n) := fun h => hb ⟨hl1.reg.back g18 h.1, hr1.reg.back g18 h.2⟩
          refine ⟨not_both (m := 0) (k := k) hnot hres, res.w, res.n, fun y hy => ?_, ?_⟩
          · exfalso
            rcases fr18 _ _ _ _ _ hy with ⟨y', h⟩ | h
            · exact hnone1 y' h
            · rw [← hln, ← hrn] at h; exact hnot h
          · cases haz : WOps.az res.w
            · exact .inr ⟨haz, rfl, .inl rfl⟩
            · exact .inl ⟨haz, haz⟩
      obtain ⟨hcov, w, n, hold, hnew⟩ := main
      have hcov' : Cov env s8 (some lp) (some rp) res.n := hln ▸ hrn ▸ hcov
      obtain ⟨s9, rs, i9, g9, hs9, hnew9⟩ := setPM_run i8 hl8 hr8 hv8 hcov' hold hnew
      have g19 := g18.trans g9
      refine ⟨if WOps.az (WOps.mul (WOps.mul res.w l.w) r.w) = true then zeroE else
        if WOps.aone (WOps.mul (WOps.mul res.w l.w) r.w) = true then ⟨WOps.one, res.n⟩ else
          ⟨WOps.mul (WOps.mul res.w l.w) r.w, res.n⟩, s9, ?_, i9, g1.trans g19, ?_, ?_, ?_⟩
      · rw [hunf]; unfold mulBody; rw [run_ok ho]
        simp only
        rw [run_ok hrl, run_ok hrr, if_pos ⟨vl, vr⟩, run_ok r01, run_ok r02, run_ok r03, run_ok r11, run_ok r12,
          run_ok r13, run_ok r21, run_ok r22, run_ok r23, run_ok r31, run_ok r32, run_ok r33, run_ok rm, run_ok rs]
        split
        · rfl
        · split <;> rfl
      · have := hcov'.ext g9 hl8 hr8
        rw [← hln, ← hrn] at this
        split
        · exact fun _ _ _ => .inl rfl
        · split <;> exact this
      · refine fr1.trans ((fr18.mono (Nat.le_succ k)).trans ?_ g9) g19
        intro lv key a b y hy
        rcases hs9 _ _ _ _ _ hy with h | ⟨rfl, rfl, _⟩
        · exact .inl ⟨y, h⟩
        · exact .inr ⟨hln ▸ hl1.ext g19, hrn ▸ hr1.ext g19⟩
      · rintro lp' rp' rfl rfl
        cases hln
        cases hrn
        refine ⟨v, w, n, hv8.ext g9 hl8, ⟨_, hnew9⟩, fun y hy => ?_, hnew.ret'⟩
        rcases hs9 _ _ _ _ _ hy with h | ⟨_, _, rfl⟩
        · exact hold y h
        · exact ⟨res, rfl, hnew⟩

/-! ## The API entry points -/

theorem rootVar_ok {s : St W} (hi : Inv env s) {l r : Option Nat} {nl nr : MNode W} (hl : ReadM env s l nl)
    (hr : ReadM env s r nr) (hn : ¬ (l = none ∧ r = none)) :
    (rootVar l r nl.v nr.v + 1).toNat ≤ NQUBITS ∧ MLv env s (rootVar l r nl.v nr.v + 1).toNat l ∧
      MLv env s (rootVar l r nl.v nr.v + 1).toNat r := by
  have lev : ∀ {p nd}, UTable.Reg env.hm s.mt p nd → 0 ≤ nd.v ∧ nd.v < 100 := fun h => by
    obtain ⟨m, h1, h2⟩ := hi.mlevel h
    have : NQUBITS = 100 := rfl
    omega
  have h100 : NQUBITS = 100 := rfl
  rcases hl with ⟨rfl, h1⟩ | ⟨p, rfl, h1⟩ <;> rcases hr with ⟨rfl, h2⟩ | ⟨q, rfl, h2⟩
  · exact (hn ⟨rfl, rfl⟩).elim
  · have := lev h2
    simp only [rootVar, true_or, if_true]
    exact ⟨by omega, .inl rfl, .inr ⟨q, nr, rfl, h2, by omega⟩⟩
  · have := lev h1
    simp only [rootVar]
    rw [if_neg (by simp)]
    exact ⟨by omega, .inr ⟨p, nl, rfl, h1, by omega⟩, .inl rfl⟩
  · have a := lev h1
    have b := lev h2
    simp only [rootVar]
    split
    · next h =>
      have hgt : nr.v > nl.v := (h.resolve_left (by simp)).2
      exact ⟨by omega, .inr ⟨p, nl, rfl, h1, by omega⟩, .inr ⟨q, nr, rfl, h2, by omega⟩⟩
    · next h =>
      have hle : ¬ nr.v > nl.v := fun hg => h (.inr ⟨by simp, hg⟩)
      exact ⟨by omega, .inr ⟨p, nl, rfl, h1, by omega⟩, .inr ⟨q, nr, rfl, h2, by omega⟩⟩

theorem mmAdd_run {s : St W} {l r : Edge W} (hi : Inv env s) (hl : MReg env s l.n) (hr : MReg env s r.n) :
    Runs (mmAdd env l r) s fun e s' => Inv env s' ∧ Grow env s s' ∧ Cov env s' l.n r.n e.n := by
  unfold mmAdd
  by_cases hn : l.n = none ∧ r.n = none
  · rw [if_pos hn]
    exact Runs.pure ⟨hi, Grow.refl env s, fun _ _ _ => .inl rfl⟩
  rw [if_neg hn]
  obtain ⟨nl, h1, h2⟩ := readM_run hl
  obtain ⟨nr, g1, g2⟩ := readM_run hr
  obtain ⟨a, b, c⟩ := rootVar_ok hi h2 g2 hn
  obtain ⟨e, s', h, h3, h4, h5, _⟩ := mmAdd2_run a hi b c
  exact ⟨e, s', by rw [run_ok h1, run_ok g1, h], h3, h4, h5⟩

theorem mmMul_run {s : St W} {l r : Edge W} (hi : Inv env s) (hl : MReg env s l.n) (hr : MReg env s r.n) :
    Runs (mmMul env l r) s fun e s' => Inv env s' ∧ Grow env s s' ∧ Cov env s' l.n r.n e.n := by
  unfold mmMul
  by_cases hn : l.n = none ∧ r.n = none
  · rw [if_pos hn]
    exact Runs.pure ⟨hi, Grow.refl env s, fun _ _ _ => .inl rfl⟩
  rw [if_neg hn]
  obtain ⟨nl, h1, h2⟩ := readM_run hl
  obtain ⟨nr, g1, g2⟩ := readM_run hr
  obtain ⟨a, b, c⟩ := rootVar_ok hi h2 g2 hn
  obtain ⟨e, s', h, h3, h4, h5, _⟩ := mmMul2_run a hi b c
  exact ⟨e, s', by rw [run_ok h1, run_ok g1, h], h3, h4, h5⟩

end Safe
end QDD
