import Verif.Api.Correct
/-!
# Histories of API calls
-/

set_option linter.unusedSectionVars false
set_option linter.unusedVariables false
set_option linter.unusedSimpArgs false

namespace QDD.Api
open ExactW Prog Spec

variable {K : Type} [Field K] [LinearOrder K] [IsStrictOrderedRing K]

/-- Under every schedule the call returns `o`: no error is possible, it can always be completed, and every
completion returns `o`. -/
structure Returns (cfg : Cfg K) (σ : Sys K) (c : Cmd K) (o : Obs K) : Prop where
  noFault : ¬ CanFault cfg σ c
  /-- no scheduler can run it into a dead end (infinite schedules do not exist at all, `Prog.acc`) -/
  live : ∀ fk p s, Steps (prog cfg fk σ.d c) σ.st p s → ∃ a s', Steps p s (Prog.ret a) s'
  answer : ∀ o' σ', Exec cfg σ c o' σ' → o' = o

theorem Returns.exec {cfg : Cfg K} {σ : Sys K} {c : Cmd K} {o : Obs K} (h : Returns cfg σ c o) :
    ∃ σ', Exec cfg σ c o σ' := by
  obtain ⟨a, s', hs⟩ := h.live (fun _ => false) _ _ .refl
  have he : Exec cfg σ c a.2 ⟨a.1, s'⟩ := ⟨_, hs⟩
  exact ⟨⟨a.1, s'⟩, by rw [← h.answer _ _ he]; exact he⟩

theorem Returns.unique {cfg : Cfg K} {σ : Sys K} {c : Cmd K} {o o' : Obs K} (h : Returns cfg σ c o)
    (h' : Returns cfg σ c o') : o = o' := by
  obtain ⟨σ', he⟩ := h.exec
  exact h'.answer _ _ he

/-- One call from a state representing `h`. -/
theorem Rel.call {cfg : Cfg K} {σ : Sys K} {h : Heap K} (hr : Rel cfg.env σ h) {c : Cmd K} (hp : pre NQUBITS h c)
    {h' o'} (hs : Spec.step cfg.sqrt h c = some (h', o')) :
    Returns cfg σ c o' ∧ ∀ o σ', Exec cfg σ c o σ' → Rel cfg.env σ' h' := by
  refine ⟨⟨?_, ?_, ?_⟩, ?_⟩
  · rintro ⟨fk, p, s, hst, hf⟩
    exact ((call_total cfg fk hr hp hs).1 p s hst).1 hf
  · intro fk p s hst
    exact ((call_total cfg fk hr hp hs).1 p s hst).2
  · rintro o σ' ⟨fk, hst⟩
    exact ((call_total cfg fk hr hp hs).2 _ _ hst).2
  · rintro o σ' ⟨fk, hst⟩
    exact ((call_total cfg fk hr hp hs).2 _ _ hst).1

/-- Every reachable machine state represents the heap of the same calls on plain values. -/
theorem Hist.rel {cfg : Cfg K} {thr thrM : Nat} {cs h σ os} (hR : Hist cfg thr thrM cs h σ os) :
    Rel cfg.env σ h := by
  induction hR with
  | init => exact init_rel _ _ _
  | call _ hp hs he ih => exact (ih.call hp hs).2 _ _ he

/-- **Refinement**: the answers of a history are those of the specification. -/
theorem Hist.runs {cfg : Cfg K} {thr thrM : Nat} {cs h σ os} (hR : Hist cfg thr thrM cs h σ os) :
    Runs cfg.sqrt NQUBITS cs h os := by
  induction hR with
  | init => exact .nil
  | call hR hp hs he ih =>
    have := (hR.rel.call hp hs).1.answer _ _ he
    subst this
    exact .cons ih hp hs

/-- **Totality**: every history the specification allows can be executed. -/
theorem Hist.of_runs (cfg : Cfg K) (thr thrM : Nat) {cs h os} (hR : Runs cfg.sqrt NQUBITS cs h os) :
    ∃ σ, Hist cfg thr thrM cs h σ os := by
  induction hR with
  | nil => exact ⟨_, .init⟩
  | cons _ hp hs ih =>
    obtain ⟨σ, ih⟩ := ih
    obtain ⟨σ', he⟩ := (ih.rel.call hp hs).1.exec
    exact ⟨σ', .call ih hp hs he⟩

/-- In a reachable state every allowed call returns, under every schedule, the specified answer. -/
theorem Hist.returns {cfg : Cfg K} {thr thrM : Nat} {cs h σ os} (hR : Hist cfg thr thrM cs h σ os) {c : Cmd K}
    (hp : pre NQUBITS h c) {h' o'} (hs : Spec.step cfg.sqrt h c = some (h', o')) : Returns cfg σ c o' :=
  (hR.rel.call hp hs).1

/-- The state after a call is reachable. -/
theorem Hist.after {cfg : Cfg K} {thr thrM : Nat} {cs h σ os} (hR : Hist cfg thr thrM cs h σ os) {c : Cmd K}
    (hp : pre NQUBITS h c) {h' o'} (hs : Spec.step cfg.sqrt h c = some (h', o')) {o σ'} (he : Exec cfg σ c o σ') :
    Hist cfg thr thrM (cs ++ [c]) h' σ' (os ++ [o]) := .call hR hp hs he

/-- No infinite schedule of a call. -/
theorem no_infinite_schedule (cfg : Cfg K) (fk : Nat → Bool) (d : Data K) (c : Cmd K)
    (p : Nat → P (C K) (Data K × Obs K)) (s : Nat → St (C K)) (h0 : p 0 = prog cfg fk d c)
    (h : ∀ n, Prog.Step (p n) (s n) (p (n + 1)) (s (n + 1))) : False := by
  have key : ∀ q : P (C K) (Data K × Obs K), Acc (fun p' p => ∃ s s', Prog.Step p s p' s') q → ∀ n, p n ≠ q := by
    intro q hq
    induction hq with
    | intro q _ ih => intro n hn; subst hn; exact ih (p (n + 1)) ⟨_, _, h n⟩ (n + 1) rfl
  exact key _ (Prog.acc _) 0 rfl

/-! ## Read-outs -/

/-- `getVector` of handle `v` returns the `2^n` entries `f 0, f 1, …`. -/
def ReadsV (cfg : Cfg K) (σ : Sys K) (v n : Nat) (f : Nat → C K) : Prop :=
  Returns cfg σ (.getVector v) (.vec ((List.range (2 ^ n)).map fun i => some (f i)))

/-- `getMatrix(n)` of handle `m` returns the entries `F i j`. -/
def ReadsM (cfg : Cfg K) (σ : Sys K) (m n : Nat) (F : Nat → Nat → C K) : Prop :=
  Returns cfg σ (.getMatrix m n) (.mat ((List.range (2 ^ n)).map fun i =>
    (List.range (2 ^ n)).map fun j => some (F i j)))

theorem map_range_inj {α : Type} {n : Nat} {f g : Nat → α} :
    (List.range n).map f = (List.range n).map g ↔ ∀ i < n, f i = g i := by
  constructor
  · intro h i hi
    have := congrArg (·[i]?) h
    simpa [hi] using this
  · intro h
    exact List.map_congr_left fun i hi => h i (List.mem_range.1 hi)

theorem ReadsV.congr {cfg : Cfg K} {σ : Sys K} {v n : Nat} {f g : Nat → C K} (h : ReadsV cfg σ v n f)
    (hfg : ∀ i < 2 ^ n, f i = g i) : ReadsV cfg σ v n g := by
  unfold ReadsV at h ⊢
  rwa [← map_range_inj.2 fun i hi => congrArg some (hfg i hi)]

theorem ReadsV.unique {cfg : Cfg K} {σ : Sys K} {v n : Nat} {f g : Nat → C K} (h : ReadsV cfg σ v n f)
    (h' : ReadsV cfg σ v n g) : ∀ i < 2 ^ n, f i = g i := by
  have := Returns.unique h h'
  injection this with this
  intro i hi
  have := map_range_inj.1 this i hi
  simpa using this

theorem ReadsM.congr {cfg : Cfg K} {σ : Sys K} {m n : Nat} {F G : Nat → Nat → C K} (h : ReadsM cfg σ m n F)
    (hfg : ∀ i < 2 ^ n, ∀ j < 2 ^ n, F i j = G i j) : ReadsM cfg σ m n G := by
  unfold ReadsM at h ⊢
  rwa [← map_range_inj.2 fun i hi => map_range_inj.2 fun j hj => congrArg some (hfg i hi j hj)]

theorem ReadsM.unique {cfg : Cfg K} {σ : Sys K} {m n : Nat} {F G : Nat → Nat → C K} (h : ReadsM cfg σ m n F)
    (h' : ReadsM cfg σ m n G) : ∀ i < 2 ^ n, ∀ j < 2 ^ n, F i j = G i j := by
  have := Returns.unique h h'
  injection this with this
  intro i hi j hj
  have := map_range_inj.1 this i hi
  have := map_range_inj.1 this j hj
  simpa using this

theorem Hist.readsV {cfg : Cfg K} {thr thrM : Nat} {cs h σ os} (hR : Hist cfg thr thrM cs h σ os) {v : Nat}
    {V : Vec K} (hv : h.vs[v]? = some V) (hn : V.Nonzero) (hk : V.k ≤ 30) : ReadsV cfg σ v V.k V.f :=
  hR.returns (c := .getVector v) ⟨V, hv, hn, hk⟩
    (h' := h) (by simp only [Spec.step, hv, Option.bind_eq_bind, Option.bind_some])

theorem Hist.readsM {cfg : Cfg K} {thr thrM : Nat} {cs h σ os} (hR : Hist cfg thr thrM cs h σ os) {m n : Nat}
    {M : Mat K} (hm : h.ms[m]? = some M) (hk : M.k ≤ n) (hn : n ≤ 30) : ReadsM cfg σ m n (M.at n) :=
  hR.returns (c := .getMatrix m n) ⟨M, hm, hk, hn⟩
    (h' := h) (by simp only [Spec.step, hm, Option.bind_eq_bind, Option.bind_some])

end QDD.Api
