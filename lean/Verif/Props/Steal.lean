import Verif.Conc.Steal
import Mathlib.Tactic
/-!
# C66: every ready fiber is picked once
-/

set_option linter.unusedVariables false
set_option linter.unusedSimpArgs false

namespace QDD.Props
open QDD.Steal

/-! ## Specification -/

/-- The fibers handed to thread `i`, in order. -/
def handed (i : Nat) (tr : List Steal.Ev) : List Nat :=
  tr.filterMap fun e => match e with | .awake t f => if t = i then some f else none | _ => none

/-- The fibers that `pick_next` of any thread returned from the queue of thread `i`, in order. -/
def takenFrom (i : Nat) (tr : List Steal.Ev) : List Nat :=
  tr.filterMap fun e => match e with | .took _ j f => if j = i then some f else none | _ => none

/-- How often fiber `f` was made ready. -/
def readied (f : Nat) (tr : List Steal.Ev) : Nat := tr.countP fun e => match e with | .awake _ g => g = f | _ => false

/-- How often fiber `f` was picked, by any thread. -/
def picked (f : Nat) (tr : List Steal.Ev) : Nat := tr.countP fun e => match e with | .took _ _ g => g = f | _ => false

/-- A return of `pick_next` in thread `t`. -/
def returnsIn (t : Nat) : Steal.Ev → Bool
  | .took u _ _ => u = t
  | .null u => u = t
  | _ => false

/-- Steal attempts of thread `t` since `pick_next` last returned in it. -/
def attempts (t : Nat) (tr : List Steal.Ev) : Nat := tr.foldl (fun a e =>
  if returnsIn t e then 0 else match e with | .tried u _ => if u = t then a + 1 else a | _ => a) 0

/-- Executions from a given state. -/
inductive From (n : Nat) (pinned : Nat → Bool) (s : Steal.St) : List Steal.Ev → Steal.St → Prop
  | nil : From n pinned s [] s
  | step {es s1 es' s2} : From n pinned s es s1 → Steal.Step n pinned s1 es' s2 → From n pinned s (es ++ es') s2

/-! ## Proofs -/

variable {n : Nat} {pinned : Nat → Bool} {tr : List Steal.Ev} {s : Steal.St}

theorem handed_append (i : Nat) (a b : List Steal.Ev) : handed i (a ++ b) = handed i a ++ handed i b := List.filterMap_append
theorem takenFrom_append (i : Nat) (a b : List Steal.Ev) : takenFrom i (a ++ b) = takenFrom i a ++ takenFrom i b := List.filterMap_append

/-- **C66 (queues).** For every number of threads and every schedule: what was handed to a thread is, in this order, what
was picked from its queue followed by what still waits there.  Nothing is lost, invented or picked twice, and fibers of a
queue are picked oldest first. -/
theorem C66_fifo (hr : Steal.Run n pinned tr s) (i : Nat) : handed i tr = takenFrom i tr ++ s.q i := by
  induction hr with
  | nil => rfl
  | @step tr s es s' _ st ih =>
    rw [handed_append, takenFrom_append, ih]
    cases st with
    | @awake t f ht =>
      by_cases h : t = i
      · subst h; simp [handed, takenFrom]
      · simp [handed, takenFrom, h, Function.update_of_ne (Ne.symm h)]
    | @pop t f l ht hp hq =>
      by_cases h : t = i
      · subst h; simp [handed, takenFrom, hq]
      · simp [handed, takenFrom, h, Function.update_of_ne (Ne.symm h)]
    | empty => simp [handed, takenFrom]
    | self => simp [handed, takenFrom]
    | other => simp [handed, takenFrom]
    | @steal t j c f l ht hp hq hpin =>
      by_cases h : j = i
      · subst h; simp [handed, takenFrom, hq]
      · simp [handed, takenFrom, h, Function.update_of_ne (Ne.symm h)]
    | again => simp [handed, takenFrom]
    | giveUp => simp [handed, takenFrom]

theorem queues_empty (hr : Steal.Run n pinned tr s) {i : Nat} (hi : n ≤ i) : s.q i = [] := by
  induction hr with
  | nil => rfl
  | @step tr s es s' _ st ih =>
    cases st <;> simp_all <;> rw [Function.update_of_ne] <;> (try assumption)
    all_goals first
      | (rintro rfl; omega)
      | (rintro rfl; simp_all)

theorem count_append (p : Steal.Ev → Bool) (a b : List Steal.Ev) : (a ++ b).countP p = a.countP p + b.countP p := List.countP_append

/-- **C66 (exactly once).** A fiber has been picked as often as it was made ready, less the times it still waits in some
queue. -/
theorem C66_once (hr : Steal.Run n pinned tr s) (f : Nat) :
    readied f tr = picked f tr + ∑ i ∈ Finset.range n, (s.q i).count f := by
  induction hr with
  | nil => simp [readied, picked, Steal.init]
  | @step tr s es s' _ st ih =>
    unfold readied picked at ih ⊢
    rw [count_append, count_append, ih]
    have upd : ∀ (t : Nat) (l : List Nat), t < n → (∑ i ∈ Finset.range n, (Function.update s.q t l i).count f) + (s.q t).count f =
        (∑ i ∈ Finset.range n, (s.q i).count f) + l.count f := by
      intro t l ht
      rw [← Finset.add_sum_erase _ _ (Finset.mem_range.2 ht), ← Finset.add_sum_erase _ (fun i => (s.q i).count f) (Finset.mem_range.2 ht),
        Finset.sum_congr rfl (g := fun i => (s.q i).count f)]
      · simp; ring
      · intro i hi
        rw [Function.update_of_ne (Finset.ne_of_mem_erase hi)]
    cases st with
    | @awake t g ht =>
      have := upd t (s.q t ++ [g]) ht
      dsimp only
      rw [List.count_append] at this
      simp [List.countP_cons, List.count_cons] at this ⊢
      split at this <;> rename_i hg
      · subst hg; simp; omega
      · simp [hg]; omega
    | @pop t g l ht hp hq =>
      have := upd t l ht
      dsimp only
      rw [hq, List.count_cons] at this
      simp [List.countP_cons] at this ⊢
      split at this <;> simp_all <;> omega
    | empty => simp
    | self => simp
    | other => simp
    | @steal t j c g l ht hp hq hpin =>
      have hj : j < n := by
        by_contra h
        rw [queues_empty ‹_› (not_lt.1 h)] at hq
        cases hq
      have := upd j l hj
      dsimp only
      rw [hq, List.count_cons] at this
      simp [List.countP_cons] at this ⊢
      split at this <;> simp_all <;> omega
    | again => simp [List.countP_cons]
    | giveUp => simp [List.countP_cons]

/-- Threads inside `pick_next` look at another thread's queue, within the vector. -/
theorem steal_range (hr : Steal.Run n pinned tr s) {t i c : Nat} (h : s.pc t = .stealing i c) : i < n ∧ i ≠ t := by
  induction hr generalizing t i c with
  | nil => cases h
  | @step tr s es s' _ st ih =>
    cases st with
    | awake => exact ih h
    | pop => exact ih h
    | @empty u _ hp _ =>
      by_cases hu : t = u
      · subst hu; simp at h
      · simp [Function.update_of_ne hu] at h; exact ih h
    | @self u _ _ hp =>
      by_cases hu : t = u
      · subst hu; simp at h
      · simp [Function.update_of_ne hu] at h; exact ih h
    | @other u j _ _ hp hj hne =>
      by_cases hu : t = u
      · subst hu; simp at h; obtain ⟨rfl, _⟩ := h; exact ⟨hj, hne⟩
      · simp [Function.update_of_ne hu] at h; exact ih h
    | @steal u _ _ _ _ _ hp _ _ =>
      by_cases hu : t = u
      · subst hu; simp at h
      · simp [Function.update_of_ne hu] at h; exact ih h
    | @again u _ _ _ hp _ _ =>
      by_cases hu : t = u
      · subst hu; simp at h
      · simp [Function.update_of_ne hu] at h; exact ih h
    | @giveUp u _ _ _ hp _ _ =>
      by_cases hu : t = u
      · subst hu; simp at h
      · simp [Function.update_of_ne hu] at h; exact ih h

/-- **C66 (stealing).** Every access to `schedulers_` is in range and to another thread's entry, and a fiber picked by a
thread other than the one it was handed to is not pinned. -/
theorem C66_range (hr : Steal.Run n pinned tr s) : (∀ t i, Steal.Ev.tried t i ∈ tr → i < n ∧ i ≠ t) ∧
    ∀ t i f, Steal.Ev.took t i f ∈ tr → i ≠ t → pinned f = false := by
  induction hr with
  | nil => simp
  | @step tr s es s' hr st ih =>
    constructor
    · intro t i hm
      rcases List.mem_append.1 hm with h | h
      · exact ih.1 t i h
      · cases st <;> simp at h
        all_goals
          obtain ⟨rfl, rfl⟩ := h
          exact steal_range hr ‹_›
    · intro t i f hm hne
      rcases List.mem_append.1 hm with h | h
      · exact ih.2 t i f h hne
      · cases st <;> simp at h
        · obtain ⟨rfl, rfl, rfl⟩ := h; exact absurd rfl hne
        · obtain ⟨rfl, rfl, rfl⟩ := h; assumption

theorem attempts_append (t : Nat) (a b : List Steal.Ev) : attempts t (a ++ b) = b.foldl (fun a e =>
    if returnsIn t e then 0 else match e with | .tried u _ => if u = t then a + 1 else a | _ => a) (attempts t a) := List.foldl_append

/-- The count of a thread bounds its attempts. -/
def Counted (n t : Nat) (tr : List Steal.Ev) : Pc → Prop
  | .out => attempts t tr = 0
  | .drawing c => attempts t tr ≤ c ∧ attempts t tr < n
  | .stealing _ c => attempts t tr < c ∧ attempts t tr < n

theorem counted (hr : Steal.Run n pinned tr s) (t : Nat) : Counted n t tr (s.pc t) := by
  induction hr with
  | nil => rfl
  | @step tr s es s' hr st ih =>
    cases st with
    | @awake u f hu => unfold Counted at *; rw [attempts_append]; simpa [returnsIn] using ih
    | @pop u f l hu hp hq =>
      by_cases h : u = t
      · subst h
        rw [hp] at ih ⊢
        show attempts _ _ = 0
        rw [attempts_append]; simp [returnsIn]
      · have : attempts t (tr ++ [.took u u f]) = attempts t tr := by rw [attempts_append]; simp [returnsIn, h]
        unfold Counted at *; rw [this]; exact ih
    | @empty u hu hp hq =>
      rw [List.append_nil]
      by_cases h : t = u
      · subst h
        rw [hp] at ih
        have ih : attempts t tr = 0 := ih
        simp only [Function.update_self]
        exact ⟨by omega, by omega⟩
      · simp only [Function.update_of_ne h]; exact ih
    | @self u c hu hp =>
      rw [List.append_nil]
      by_cases h : t = u
      · subst h
        rw [hp] at ih
        obtain ⟨a, b⟩ := ih
        simp only [Function.update_self]
        exact ⟨by omega, b⟩
      · simp only [Function.update_of_ne h]; exact ih
    | @other u i c hu hp hi hne =>
      rw [List.append_nil]
      by_cases h : t = u
      · subst h
        rw [hp] at ih
        obtain ⟨a, b⟩ := ih
        simp only [Function.update_self]
        exact ⟨by omega, b⟩
      · simp only [Function.update_of_ne h]; exact ih
    | @steal u i c f l hu hp hq hpin =>
      by_cases h : t = u
      · subst h
        simp only [Function.update_self]
        show attempts _ _ = 0
        rw [attempts_append]; simp [returnsIn]
      · have : attempts t (tr ++ [.tried u i, .took u i f]) = attempts t tr := by rw [attempts_append]; simp [returnsIn, Ne.symm h]
        simp only [Function.update_of_ne h]
        unfold Counted at *; rw [this]; exact ih
    | @again u i c hu hp hq hc =>
      by_cases h : t = u
      · subst h
        rw [hp] at ih
        obtain ⟨a, b⟩ := ih
        simp only [Function.update_self]
        have : attempts t (tr ++ [.tried t i]) = attempts t tr + 1 := by rw [attempts_append]; simp [returnsIn]
        show _ ∧ _
        rw [this]
        exact ⟨by omega, by omega⟩
      · have : attempts t (tr ++ [.tried u i]) = attempts t tr := by rw [attempts_append]; simp [returnsIn, Ne.symm h]
        simp only [Function.update_of_ne h]
        unfold Counted at *; rw [this]; exact ih
    | @giveUp u i c hu hp hq hc =>
      by_cases h : t = u
      · subst h
        simp only [Function.update_self]
        show attempts _ _ = 0
        rw [attempts_append]; simp [returnsIn]
      · have : attempts t (tr ++ [.tried u i, .null u]) = attempts t tr := by rw [attempts_append]; simp [returnsIn, Ne.symm h]
        simp only [Function.update_of_ne h]
        unfold Counted at *; rw [this]; exact ih

/-- **C66 (bounded search).** `pick_next` tries to steal at most as often as there are threads before it returns. -/
theorem C66_bounded (hr : Steal.Run n pinned tr s) (t : Nat) : attempts t tr ≤ n := by
  have := counted hr t
  unfold Counted at this
  split at this <;> omega

theorem From.trans {s1 s2 s3 : Steal.St} {a b : List Steal.Ev} (h : From n pinned s1 a s2) (h' : From n pinned s2 b s3) : From n pinned s1 (a ++ b) s3 := by
  induction h' with
  | nil => rw [List.append_nil]; exact h
  | step _ st ih => rw [← List.append_assoc]; exact .step ih st

/-- Stealing once and for all. -/
theorem from_stealing (h2 : 2 ≤ n) {t : Nat} (ht : t < n) : ∀ (d : Nat) (s : Steal.St) (i c : Nat), n - c ≤ d → s.pc t = .stealing i c →
    ∃ es s', From n pinned s es s' ∧ s'.pc t = .out := by
  intro d
  induction d with
  | zero =>
    intro s i c hd hp
    by_cases hq : ∃ f l, s.q i = f :: l ∧ pinned f = false
    · obtain ⟨f, l, h1, h2⟩ := hq
      exact ⟨_, _, .step .nil (.steal ht hp h1 h2), by simp⟩
    · refine ⟨_, _, .step .nil (.giveUp ht hp (fun f l hf => ?_) (by omega)), by simp⟩
      by_contra hpin
      exact hq ⟨f, l, hf, by simpa using hpin⟩
  | succ d ih =>
    intro s i c hd hp
    by_cases hq : ∃ f l, s.q i = f :: l ∧ pinned f = false
    · obtain ⟨f, l, h1, h2⟩ := hq
      exact ⟨_, _, .step .nil (.steal ht hp h1 h2), by simp⟩
    have hq' : ∀ f l, s.q i = f :: l → pinned f = true := by
      intro f l hf
      by_contra hpin
      exact hq ⟨f, l, hf, by simpa using hpin⟩
    by_cases hc : c < n
    · obtain ⟨j, hj, hne⟩ : ∃ j, j < n ∧ j ≠ t := by
        by_cases h : t = 0
        · exact ⟨1, by omega, by omega⟩
        · exact ⟨0, by omega, Ne.symm h⟩
      have f1 : From n pinned s _ _ := .step .nil (.again ht hp hq' hc)
      have f2 := From.step f1 (.other (t := t) (i := j) (c := c) ht (by simp) hj hne)
      obtain ⟨es, s', a, b⟩ := ih ⟨s.q, Function.update (Function.update s.pc t (.drawing c)) t (.stealing j (c + 1))⟩ j (c + 1) (by omega) (by simp)
      exact ⟨_, s', f2.trans a, b⟩
    · exact ⟨_, _, .step .nil (.giveUp ht hp hq' hc), by simp⟩

/-- **C66 (progress).** With at least two threads, a thread in `pick_next` can always return by its own steps (whatever the
others do meanwhile, by `C66_bounded` after at most `n` draws of another thread's number). -/
theorem C66_returns (h2 : 2 ≤ n) (hr : Steal.Run n pinned tr s) {t : Nat} (ht : t < n) (hp : s.pc t ≠ .out) :
    ∃ es s', From n pinned s es s' ∧ s'.pc t = .out := by
  cases hpc : s.pc t with
  | out => exact absurd hpc hp
  | stealing i c => exact from_stealing h2 ht _ s i c le_rfl hpc
  | drawing c =>
    obtain ⟨j, hj, hne⟩ : ∃ j, j < n ∧ j ≠ t := by
      by_cases h : t = 0
      · exact ⟨1, by omega, by omega⟩
      · exact ⟨0, by omega, Ne.symm h⟩
    have f1 : From n pinned s _ _ := .step .nil (.other (i := j) ht hpc hj hne)
    obtain ⟨es, s', a, b⟩ := from_stealing (pinned := pinned) h2 ht _ ⟨s.q, Function.update s.pc t (.stealing j (c + 1))⟩ j (c + 1) le_rfl (by simp)
    exact ⟨_, s', f1.trans a, b⟩

/-- **C66 is false of the code for a single thread** (`Scheduler(0)`; the Python interface never makes one): once its queue
was empty, `pick_next` never returns, even if fibers are made ready meanwhile. -/
theorem C66_single_wrong (hr : Steal.Run 1 pinned tr s) (hp : s.pc 0 ≠ .out) {es : List Steal.Ev} {s' : Steal.St} (h : From 1 pinned s es s') :
    s'.pc 0 ≠ .out ∧ es.any (returnsIn 0) = false := by
  have key : s'.pc 0 ≠ .out ∧ es.any (returnsIn 0) = false ∧ ∃ tr', Steal.Run 1 pinned tr' s' := by
    induction h with
    | nil => exact ⟨hp, rfl, tr, hr⟩
    | @step es s1 es' s2 _ st ih =>
      obtain ⟨h1, h2, tr', h3⟩ := ih
      have hx : ∀ i c, s1.pc 0 ≠ .stealing i c := by
        intro i c hc
        have := steal_range h3 hc
        omega
      refine ⟨?_, ?_, _, .step h3 st⟩
      · cases st with
        | awake => exact h1
        | pop => exact h1
        | @empty t ht => obtain rfl : t = 0 := by omega
                         simp
        | @self t c ht => obtain rfl : t = 0 := by omega
                          simp
        | @other t i c ht => obtain rfl : t = 0 := by omega
                             simp
        | @steal t i c f l ht hpc => obtain rfl : t = 0 := by omega
                                     exact absurd hpc (hx _ _)
        | @again t i c ht hpc => obtain rfl : t = 0 := by omega
                                 exact absurd hpc (hx _ _)
        | @giveUp t i c ht hpc => obtain rfl : t = 0 := by omega
                                  exact absurd hpc (hx _ _)
      · rw [List.any_append, h2, Bool.false_or]
        cases st with
        | awake => rfl
        | @pop t f l ht hpc => obtain rfl : t = 0 := by omega
                               exact absurd hpc h1
        | empty => rfl
        | self => rfl
        | other => rfl
        | @steal t i c f l ht hpc => obtain rfl : t = 0 := by omega
                                     exact absurd hpc (hx _ _)
        | @again t i c ht hpc => obtain rfl : t = 0 := by omega
                                 exact absurd hpc (hx _ _)
        | @giveUp t i c ht hpc => obtain rfl : t = 0 := by omega
                                  exact absurd hpc (hx _ _)
  exact ⟨key.1, key.2.1⟩

/-- A run with a theft: thread 0 is handed two fibers, thread 1 finds its queue empty and steals the first. -/
theorem steal_demo : ∃ s, Steal.Run 2 (fun _ => false) [.awake 0 7, .awake 0 8, .tried 1 0, .took 1 0 7, .took 0 0 8] s := by
  have r0 : Steal.Run 2 (fun _ => false) [] Steal.init := .nil
  have r1 := r0.step (.awake (t := 0) (f := 7) (by decide))
  have r2 := r1.step (.awake (t := 0) (f := 8) (by decide))
  have r3 := r2.step (.empty (t := 1) (by decide) rfl (by simp [Steal.init]))
  have r4 := r3.step (.other (t := 1) (i := 0) (c := 0) (by decide) (by simp) (by decide) (by decide))
  have r5 := r4.step (.steal (t := 1) (i := 0) (c := 1) (f := 7) (l := [8]) (by decide) (by simp) (by simp [Steal.init]) rfl)
  have r6 := r5.step (.pop (t := 0) (f := 8) (l := []) (by decide) (by simp [Steal.init]) (by simp))
  exact ⟨_, by simpa using r6⟩

/-- A single thread that found its queue empty. -/
example : ∃ s, Steal.Run 1 (fun _ => false) [] s ∧ s.pc 0 ≠ .out :=
  ⟨_, by simpa using Steal.Run.nil.step (.empty (t := 0) (by decide) rfl rfl), by simp⟩

end QDD.Props
