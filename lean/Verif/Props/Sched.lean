import Verif.Conc.Sched
import Mathlib.Data.List.Count
import Mathlib.Tactic.SplitIfs
import Mathlib.Tactic.ByContra
/-!
# C44: the fiber scheduler works once
-/
set_option linter.unusedVariables false
set_option linter.unusedSimpArgs false
set_option linter.unusedSectionVars false

namespace QDD.Props
open QDD.Sched

/-- How many schedulers were started. -/
def starts : List Ev → Nat
  | [] => 0
  | .start _ :: tr => starts tr + 1
  | _ :: tr => starts tr

theorem starts_append (a b : List Ev) : starts (a ++ b) = starts a + starts b := by
  induction a with
  | nil => simp [starts]
  | cons e a ih => cases e <;> simp [starts, ih]; omega

/-- Threads that have drawn their number. -/
def drawn (l : List Pc) : Nat := l.countP (fun p => p ≠ .fresh)

theorem countP_set {l : List Pc} {i : Nat} {p q : Pc} (h : l[i]? = some p) (f : Pc → Bool) :
    (l.set i q).countP f + (if f p then 1 else 0) = l.countP f + (if f q then 1 else 0) := by
  induction l generalizing i with
  | nil => simp at h
  | cons a l ih =>
    cases i with
    | zero =>
      simp at h; subst h
      simp only [List.set_cons_zero, List.countP_cons]; omega
    | succ i =>
      simp at h
      have := ih h
      simp only [List.set_cons_succ, List.countP_cons]; omega

theorem drawn_set {l : List Pc} {i : Nat} {p q : Pc} (h : l[i]? = some p) :
    drawn (l.set i q) + (if p ≠ .fresh then 1 else 0) = drawn l + (if q ≠ .fresh then 1 else 0) := by
  have := countP_set (q := q) h (fun p => p ≠ .fresh)
  simpa [drawn] using this

theorem drawn_mapIdx (l : List Pc) (f : Nat → Pc → Pc) (hf : ∀ i p, f i p = .fresh ↔ p = .fresh) :
    drawn (l.mapIdx f) = drawn l := by
  unfold drawn
  induction l generalizing f with
  | nil => rfl
  | cons a l ih =>
    rw [List.mapIdx_cons, List.countP_cons, List.countP_cons, ih (fun i => f (i + 1)) (fun i p => hf (i + 1) p)]
    simp [hf]

theorem release_fresh (i : Nat) (p : Pc) : release i p = .fresh ↔ p = .fresh := by
  cases p <;> simp [release]; split <;> simp

theorem drawn_map_wake (l : List Pc) : drawn (l.map wake) = drawn l := by
  unfold drawn
  rw [List.countP_map]
  congr 1; funext p
  cases p <;> rfl

theorem drawn_lt {l : List Pc} {i : Nat} (h : l[i]? = some .fresh) : drawn l < l.length := by
  unfold drawn
  refine Nat.lt_of_le_of_ne List.countP_le_length (fun he => ?_)
  have := (List.countP_eq_length.mp he) _ (List.mem_of_getElem? h)
  simp at this

def InvA (s : St) : Prop := s.main = .idle ∧ s.ths = [] ∧ s.counter = 0 ∧ s.size = none
def InvB (s : St) : Prop := s.main ≠ .idle ∧ 0 < s.ths.length ∧ s.counter = drawn s.ths ∧
  (s.size = none ∨ s.size = some s.ths.length) ∧ (∀ id, Pc.got id ∈ s.ths → id < s.ths.length) ∧
  (s.size = none → ∀ p, p ∈ s.ths → p = .fresh ∨ ∃ id, p = .got id)
def InvC (s : St) : Prop := s.main = .idle ∧ s.ths = [] ∧ ∃ L, s.size = some L ∧ L ≤ s.counter
def InvD (s : St) : Prop := ∃ L, s.size = some L ∧ L ≤ s.counter ∧ (∀ id, Pc.got id ∈ s.ths → L ≤ id) ∧ (s.main = .idle → s.ths = [])

/-- By the number of schedulers started: none; the first one alive; the first one gone; a later one. -/
def SInv (k : Nat) (s : St) : Prop :=
  (k = 0 ∧ InvA s) ∨ (k = 1 ∧ InvB s) ∨ (k = 1 ∧ InvC s) ∨ (2 ≤ k ∧ InvD s)

theorem getElem?_nil_ne {i : Nat} {p : Pc} (h : ([] : List Pc)[i]? = some p) : False := by simp at h

theorem mem_mapIdx_release {l : List Pc} {p : Pc} (h : p ∈ l.mapIdx release) : p ∈ l ∨ p = .done ∨ p = .free := by
  obtain ⟨i, hi, rfl⟩ := List.mem_mapIdx.mp h
  have hm : l[i] ∈ l := List.getElem_mem hi
  cases hq : l[i] <;> simp only [release] <;> try (rw [hq] at hm; exact Or.inl hm)
  split <;> simp

theorem mem_map_wake {l : List Pc} {p : Pc} (h : p ∈ l.map wake) : p ∈ l ∨ p = .done := by
  obtain ⟨q, hq, rfl⟩ := List.mem_map.mp h
  cases q <;> simp only [wake] <;> first | exact Or.inl hq | exact Or.inr rfl | simp

theorem invB_keep {s s' : St} (h : InvB s) (hm : s'.main ≠ .idle) (hl : s'.ths.length = s.ths.length) (hc : s'.counter = s.counter)
    (hd : drawn s'.ths = drawn s.ths) (hsz : s'.size = some s.ths.length)
    (hg : ∀ id, Pc.got id ∈ s'.ths → Pc.got id ∈ s.ths) : InvB s' := by
  obtain ⟨h1, h2, h3, h4, h5, h6⟩ := h
  refine ⟨hm, by omega, by omega, Or.inr (by rw [hl]; exact hsz), fun id hid => by rw [hl]; exact h5 id (hg id hid), fun hn => ?_⟩
  rw [hsz] at hn; cases hn

theorem invB_size {s : St} (h : InvB s) {p : Pc} (hp : p ∈ s.ths) (h1 : p ≠ .fresh) (h2 : ∀ id, p ≠ .got id) :
    s.size = some s.ths.length := by
  rcases h.2.2.2.1 with hn | hs
  · rcases h.2.2.2.2.2 hn p hp with h | ⟨id, h⟩
    · exact absurd h h1
    · exact absurd h (h2 id)
  · exact hs

theorem sinv_step {k : Nat} {s s' : St} {e : Option Ev} (h : SInv k s) (st : Step s e s') :
    SInv (k + starts e.toList) s' ∧
      (∀ id sz, e = some (.write id sz) → (k = 1 ∧ id < sz) ∨ (2 ≤ k ∧ sz ≤ id)) := by
  cases st with
  | @start n hm =>
    refine ⟨?_, fun _ _ h => by cases h⟩
    rcases h with ⟨rfl, -, -, h3, h4⟩ | ⟨rfl, h1, -⟩ | ⟨rfl, -, -, L, h3, h4⟩ | ⟨hk, L, h1, h2, h3, h4⟩
    · refine Or.inr (Or.inl ⟨rfl, by simp, by simp, ?_, Or.inl h4, ?_, ?_⟩)
      · show s.counter = drawn (List.replicate (n + 1) Pc.fresh)
        rw [h3]; simp [drawn, List.countP_replicate]
      · intro id hid; have := (List.mem_replicate.mp hid).2; cases this
      · intro _ p hp; exact Or.inl (List.mem_replicate.mp hp).2
    · exact absurd hm h1
    · refine Or.inr (Or.inr (Or.inr ⟨by simp [starts], L, h3, h4, ?_, by simp⟩))
      intro id hid; have := (List.mem_replicate.mp hid).2; cases this
    · refine Or.inr (Or.inr (Or.inr ⟨by simp [starts]; omega, L, h1, h2, ?_, by simp⟩))
      intro id hid; have := (List.mem_replicate.mp hid).2; cases this
  | @ctor i hi =>
    refine ⟨?_, fun _ _ h => by cases h⟩
    have hd := drawn_set (q := .got s.counter) hi
    simp at hd
    have hlt := drawn_lt hi
    rcases h with ⟨-, -, h2, -⟩ | ⟨rfl, h1, h2, h3, h4, h5, h6⟩ | ⟨-, -, h2, -⟩ | ⟨hk, L, h1, h2, h3, h4⟩
    · rw [h2] at hi; cases hi
    · refine Or.inr (Or.inl ⟨rfl, h1, by simpa using h2, ?_, by simpa using h4, ?_, ?_⟩)
      · show s.counter + 1 = drawn (s.ths.set i _); omega
      · intro id hid
        rcases List.mem_or_eq_of_mem_set hid with hid | hid
        · simpa using h5 id hid
        · cases hid; simp; omega
      · intro hn p hp
        rcases List.mem_or_eq_of_mem_set hp with hp | hp
        · exact h6 hn p hp
        · exact Or.inr ⟨_, hp⟩
    · rw [h2] at hi; cases hi
    · refine Or.inr (Or.inr (Or.inr ⟨hk, L, h1, by show L ≤ s.counter + 1; omega, ?_, ?_⟩))
      · intro id hid
        rcases List.mem_or_eq_of_mem_set hid with hid | hid
        · exact h3 id hid
        · cases hid; exact h2
      · intro hm
        have h5 : s.ths = [] := h4 hm
        show s.ths.set i _ = []
        rw [h5]; rfl
  | @write i id hi =>
    have hmem : Pc.got id ∈ s.ths := List.mem_of_getElem? hi
    have hd := drawn_set (q := .wrote) hi
    simp at hd
    rcases h with ⟨-, -, h2, -⟩ | ⟨rfl, hB⟩ | ⟨-, -, h2, -⟩ | ⟨hk, L, h1, h2, h3, h4⟩
    · rw [h2] at hi; cases hi
    · have hB' := hB
      obtain ⟨h1, h2, h3, h4, h5, h6⟩ := hB'
      have hsz : s.size.getD s.ths.length = s.ths.length := by
        rcases h4 with h | h <;> rw [h] <;> rfl
      refine ⟨Or.inr (Or.inl ⟨rfl, ?_⟩), fun id' sz he => ?_⟩
      · refine invB_keep hB h1 (by simp) rfl hd (by show some (s.size.getD _) = _; rw [hsz]) (fun j hj => ?_)
        rcases List.mem_or_eq_of_mem_set hj with hj | hj
        · exact hj
        · cases hj
      · cases he
        left
        rw [hsz]; exact ⟨rfl, h5 _ hmem⟩
    · rw [h2] at hi; cases hi
    · refine ⟨Or.inr (Or.inr (Or.inr ⟨by simp [starts]; exact hk, L, ?_, h2, ?_, ?_⟩)), fun id' sz he => ?_⟩
      · show some (s.size.getD _) = _; rw [h1]; rfl
      · intro j hj
        rcases List.mem_or_eq_of_mem_set hj with hj | hj
        · exact h3 j hj
        · cases hj
      · intro hm
        have h5 : s.ths = [] := h4 hm
        rw [h5] at hi; cases hi
      · cases he
        right
        rw [h1]; exact ⟨hk, h3 _ hmem⟩
  | @arrive i k' hi hn hlt =>
    refine ⟨?_, fun _ _ h => by cases h⟩
    have hmem : Pc.wrote ∈ s.ths := List.mem_of_getElem? hi
    have hd := drawn_set (q := .atBarrier) hi
    simp at hd
    have hg : ∀ id, Pc.got id ∈ s.ths.set i .atBarrier → Pc.got id ∈ s.ths := by
      intro j hj
      rcases List.mem_or_eq_of_mem_set hj with hj | hj
      · exact hj
      · cases hj
    rcases h with ⟨-, -, h2, -⟩ | ⟨rfl, hB⟩ | ⟨-, -, h2, -⟩ | ⟨hk, L, h1, h2, h3, h4⟩
    · rw [h2] at hi; cases hi
    · exact Or.inr (Or.inl ⟨rfl, invB_keep hB hB.1 (by simp) rfl hd (invB_size hB hmem (by simp) (by simp)) hg⟩)
    · rw [h2] at hi; cases hi
    · refine Or.inr (Or.inr (Or.inr ⟨hk, L, h1, h2, fun j hj => h3 j (hg j hj), fun hm => ?_⟩))
      have h5 : s.ths = [] := h4 hm
      rw [h5] at hi; cases hi
  | @arriveLast i k' hi hn hlt =>
    refine ⟨?_, fun _ _ h => by cases h⟩
    have hmem : Pc.wrote ∈ s.ths := List.mem_of_getElem? hi
    have hd := drawn_set (q := .atBarrier) hi
    simp at hd
    have hd' : drawn ((s.ths.set i .atBarrier).mapIdx release) = drawn s.ths := by
      rw [drawn_mapIdx _ _ release_fresh, hd]
    have hg : ∀ id, Pc.got id ∈ (s.ths.set i .atBarrier).mapIdx release → Pc.got id ∈ s.ths := by
      intro j hj
      rcases mem_mapIdx_release hj with hj | hj | hj
      · rcases List.mem_or_eq_of_mem_set hj with hj | hj
        · exact hj
        · cases hj
      · cases hj
      · cases hj
    rcases h with ⟨-, -, h2, -⟩ | ⟨rfl, hB⟩ | ⟨-, -, h2, -⟩ | ⟨hk, L, h1, h2, h3, h4⟩
    · rw [h2] at hi; cases hi
    · exact Or.inr (Or.inl ⟨rfl, invB_keep hB hB.1 (by simp) rfl hd' (invB_size hB hmem (by simp) (by simp)) hg⟩)
    · rw [h2] at hi; cases hi
    · refine Or.inr (Or.inr (Or.inr ⟨hk, L, h1, h2, fun j hj => h3 j (hg j hj), fun hm => ?_⟩))
      have h5 : s.ths = [] := h4 hm
      rw [h5] at hi; cases hi
  | @wait i hi =>
    refine ⟨?_, fun _ _ h => by cases h⟩
    have hmem : Pc.free ∈ s.ths := List.mem_of_getElem? hi
    have hd := drawn_set (q := .waiting) hi
    simp at hd
    have hg : ∀ id, Pc.got id ∈ s.ths.set i .waiting → Pc.got id ∈ s.ths := by
      intro j hj
      rcases List.mem_or_eq_of_mem_set hj with hj | hj
      · exact hj
      · cases hj
    rcases h with ⟨-, -, h2, -⟩ | ⟨rfl, hB⟩ | ⟨-, -, h2, -⟩ | ⟨hk, L, h1, h2, h3, h4⟩
    · rw [h2] at hi; cases hi
    · exact Or.inr (Or.inl ⟨rfl, invB_keep hB hB.1 (by simp) rfl hd (invB_size hB hmem (by simp) (by simp)) hg⟩)
    · rw [h2] at hi; cases hi
    · refine Or.inr (Or.inr (Or.inr ⟨hk, L, h1, h2, fun j hj => h3 j (hg j hj), fun hm => ?_⟩))
      have h5 : s.ths = [] := h4 hm
      rw [h5] at hi; cases hi
  | @notify hm h0 =>
    refine ⟨?_, fun _ _ h => by cases h⟩
    have hmem : Pc.done ∈ s.ths := List.mem_of_getElem? h0
    have hg : ∀ id, Pc.got id ∈ s.ths.map wake → Pc.got id ∈ s.ths := by
      intro j hj
      rcases mem_map_wake hj with hj | hj
      · exact hj
      · cases hj
    rcases h with ⟨-, -, h2, -⟩ | ⟨rfl, hB⟩ | ⟨-, -, h2, -⟩ | ⟨hk, L, h1, h2, h3, h4⟩
    · rw [h2] at h0; cases h0
    · exact Or.inr (Or.inl ⟨rfl, invB_keep hB (by simp) (by simp) rfl (drawn_map_wake _) (invB_size hB hmem (by simp) (by simp)) hg⟩)
    · rw [h2] at h0; cases h0
    · exact Or.inr (Or.inr (Or.inr ⟨hk, L, h1, h2, fun j hj => h3 j (hg j hj), by simp⟩))
  | @joined hm hall =>
    refine ⟨?_, fun _ _ h => by cases h⟩
    rcases h with ⟨-, h2, -⟩ | ⟨rfl, hB⟩ | ⟨-, h2, -⟩ | ⟨hk, L, h1, h2, h3, h4⟩
    · rw [h2] at hm; cases hm
    · obtain ⟨h1, h2, h3, -⟩ := id hB
      have hx : s.ths[0] ∈ s.ths := List.getElem_mem h2
      have hsz := invB_size hB hx (by rw [hall _ hx]; simp) (by rw [hall _ hx]; simp)
      refine Or.inr (Or.inr (Or.inl ⟨rfl, rfl, rfl, _, hsz, ?_⟩))
      show s.ths.length ≤ s.counter
      rw [h3]
      unfold drawn
      exact Nat.le_of_eq (List.countP_eq_length.mpr (fun p hp => by rw [hall p hp]; decide)).symm
    · rw [h2] at hm; cases hm
    · exact Or.inr (Or.inr (Or.inr ⟨by simp [starts]; exact hk, L, h1, h2, by simp, by simp⟩))

theorem sinv_run {tr : List Ev} {s : St} (r : Run tr s) : SInv (starts tr) s := by
  induction r with
  | nil => exact Or.inl ⟨rfl, rfl, rfl, rfl, rfl⟩
  | tau r st ih => have := (sinv_step ih st).1; simpa [starts] using this
  | vis r st ih => rw [starts_append]; exact (sinv_step ih st).1

theorem writes_run {tr : List Ev} {s : St} (r : Run tr s) :
    ∀ p id sz q, tr = p ++ Ev.write id sz :: q → (starts p = 1 ∧ id < sz) ∨ (2 ≤ starts p ∧ sz ≤ id) := by
  induction r with
  | nil => intro p id sz q h; simp at h
  | tau r st ih => exact ih
  | @vis tr s s' e r st ih =>
    intro p id sz q h
    rcases List.eq_nil_or_concat q with rfl | ⟨q', e', rfl⟩
    · obtain ⟨h1, h2⟩ := List.append_inj' h rfl
      subst h1
      cases h2
      exact (sinv_step (sinv_run r) st).2 id sz rfl
    · rw [List.concat_eq_append, ← List.cons_append, ← List.append_assoc] at h
      obtain ⟨h1, -⟩ := List.append_inj' h rfl
      exact ih p id sz q' h1

/-- **C44, the part that holds.** As long as at most one scheduler has been started in the process, with any
number of workers and under every interleaving, every registration writes inside the vector. -/
theorem C44_first_partial (tr : List Ev) (s : St) (r : Run tr s) (h : starts tr ≤ 1) (id sz : Nat)
    (hw : Ev.write id sz ∈ tr) : id < sz := by
  obtain ⟨p, q, rfl⟩ := List.append_of_mem hw
  rcases writes_run r p id sz q rfl with ⟨-, h1⟩ | ⟨h1, -⟩
  · exact h1
  · rw [starts_append] at h; omega

/-- **C44 fails.** After a first scheduler was started, every registration of every later scheduler writes
outside the vector: the counter and the vector are static and are not reset. -/
theorem C44_second_wrong (tr : List Ev) (s : St) (r : Run tr s) (p q : List Ev) (id sz : Nat)
    (htr : tr = p ++ Ev.write id sz :: q) (h : 2 ≤ starts p) : sz ≤ id := by
  rcases writes_run r p id sz q htr with ⟨h1, -⟩ | ⟨-, h1⟩
  · omega
  · exact h1

/-- A first scheduler with one worker, up to the point where its constructor has returned. -/
def up : St := { counter := 2, size := some 2, need := some 2, arrived := 0, ths := [.done, .free], main := .running }

theorem run_up : Run [.start 1, .write 0 2, .write 1 2] up := by
  have r0 := Run.vis Run.nil (Step.start (n := 1) rfl)
  have r1 := Run.tau r0 (Step.ctor (i := 0) rfl)
  have r2 := Run.tau r1 (Step.ctor (i := 1) rfl)
  have r3 := Run.vis r2 (Step.write (i := 0) (id := 0) rfl)
  have r4 := Run.vis r3 (Step.write (i := 1) (id := 1) rfl)
  have r5 := Run.tau r4 (Step.arrive (i := 0) (k := 2) rfl rfl (by decide))
  exact Run.tau r5 (Step.arriveLast (i := 1) (k := 2) rfl rfl (by decide))

/-- **C44 fails: the destructor can hang.** With a single scheduler of one worker there is a schedule after which
the destructor is joining and no thread can ever make a step: `notify_all` ran before the worker reached
`cond_stop.wait`, which has no predicate. -/
theorem C44_hang_wrong : ∃ tr s, Run tr s ∧ starts tr = 1 ∧ s.main = .joining ∧ ∀ e s', ¬ Step s e s' := by
  have r1 := Run.tau run_up (Step.notify rfl rfl)
  have r2 := Run.tau r1 (Step.wait (i := 1) rfl)
  refine ⟨_, _, r2, rfl, rfl, ?_⟩
  have key : ∀ (i : Nat) (p : Pc), ([.done, .waiting] : List Pc)[i]? = some p → p = .done ∨ p = .waiting := by
    intro i p h
    rcases i with _ | _ | i <;> simp at h
    · exact Or.inl h.symm
    · exact Or.inr h.symm
  intro e s' st
  cases st with
  | start h => cases h
  | ctor h => rcases key _ _ h with h | h <;> cases h
  | write h => rcases key _ _ h with h | h <;> cases h
  | arrive h => rcases key _ _ h with h | h <;> cases h
  | arriveLast h => rcases key _ _ h with h | h <;> cases h
  | wait h => rcases key _ _ h with h | h <;> cases h
  | notify h => cases h
  | joined _ h => exact absurd (h .waiting (by decide)) (by decide)

/-- **C44, the part that holds about stopping.** If every worker already waits when the destructor starts, the
destructor's notification lets it finish. -/
theorem C44_stop_partial (s : St) (hm : s.main = .running) (h0 : s.ths[0]? = some .done)
    (hw : ∀ p, p ∈ s.ths → p = .done ∨ p = .waiting) :
    ∃ s1 s2, Step s none s1 ∧ Step s1 (some .stopped) s2 ∧ s2.main = .idle := by
  refine ⟨_, _, Step.notify hm h0, Step.joined rfl ?_, rfl⟩
  intro p hp
  obtain ⟨q, hq, rfl⟩ := List.mem_map.mp hp
  rcases hw q hq with rfl | rfl <;> rfl

/-- The hypotheses of `C44_first_partial`, `C44_stop_partial` and `C44_second_wrong` are met by one run: a scheduler
is started, stopped properly, and a second one is started, whose first registration is out of range. -/
theorem sched_demo : ∃ tr s p, Run tr s ∧ tr = p ++ [Ev.write 2 2] ∧ starts p = 2 ∧
    ∃ q, p = [Ev.start 1, .write 0 2, .write 1 2, .stopped] ++ q := by
  have r1 := Run.tau run_up (Step.wait (i := 1) rfl)
  have r2 := Run.tau r1 (Step.notify rfl rfl)
  have r3 := Run.vis r2 (Step.joined rfl (by decide))
  have r4 := Run.vis r3 (Step.start (n := 1) rfl)
  have r5 := Run.tau r4 (Step.ctor (i := 0) rfl)
  have r6 := Run.vis r5 (Step.write (i := 0) (id := 2) rfl)
  exact ⟨_, _, [Ev.start 1, .write 0 2, .write 1 2, .stopped, .start 1], r6, rfl, rfl, [.start 1], rfl⟩

end QDD.Props
