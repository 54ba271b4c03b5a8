import Verif.Py.Stats
import Verif.Props.Sampler
/-!
# C70: statistics of the shots
-/

set_option linter.unusedSectionVars false
set_option linter.unusedVariables false
set_option linter.unusedSimpArgs false

namespace QDD.Py.Client
open Spec Api

/-- The impossible event. -/
theorem Yields.never {cfg : Cfg ℝ} {α : Type} {T : Option α → Prop} (p : Client α) : ∀ {σ : Sys ℝ} {x : ℝ},
    Yields cfg p σ T x → Yields cfg p σ (fun _ => False) 0 := by
  induction p with
  | ret a => intro σ x h1; rw [Yields, if_neg (fun h => h)]
  | raise => intro σ x h1; rw [Yields, if_neg (fun h => h)]
  | draw k ih =>
    rintro σ x ⟨F, hF, iF, rfl⟩
    exact ⟨fun _ => 0, fun u h0 h1 => ih u (hF u h0 h1), MeasureTheory.integrableOn_zero, by simp⟩
  | call c k ih =>
    rintro σ x ⟨h0, h1, h2⟩
    exact ⟨h0, h1, fun o σ1 he => ih _ _ _ (h2 o σ1 he)⟩

/-- Finitely many events that exclude each other. -/
theorem Yields.sum {cfg : Cfg ℝ} {α ι : Type} {p : Client α} {σ : Sys ℝ} {T0 : Option α → Prop} {x0 : ℝ} (h0 : Yields cfg p σ T0 x0)
    {T : ι → Option α → Prop} {x : ι → ℝ} (hd : ∀ i j r, T i r → T j r → i = j) (S : Finset ι) (h : ∀ i ∈ S, Yields cfg p σ (T i) (x i)) :
    Yields cfg p σ (fun r => ∃ i ∈ S, T i r) (∑ i ∈ S, x i) := by
  classical
  induction S using Finset.induction_on with
  | empty =>
    refine Yields.congr (fun r => ?_) (Yields.never p h0)
    simp
  | insert a S ha ih =>
    rw [Finset.sum_insert ha]
    have h1 := ih fun i hi => h i (Finset.mem_insert_of_mem hi)
    refine Yields.congr (fun r => ?_) (Yields.or (p := p) (fun r => ?_) (h a (Finset.mem_insert_self a S)) h1)
    · simp
    · rintro ⟨ht, i, hi, hti⟩
      exact ha (hd i a r hti ht ▸ hi)

end QDD.Py.Client

namespace QDD.Props
open Spec Api Gate Finset Py Py.Client

variable {cfg : Cfg ℝ} {thr thrM : Nat} {cs : List (Cmd ℝ)} {h : Heap ℝ} {σ : Sys ℝ} {os : List (Obs ℝ)}

/-- The job returned a memory of `s` keys of `nc` characters, and `A` is true of it. -/
def Returned (s nc : Nat) (A : List (List Bool) → Prop) (r : Option Result) : Prop :=
  ∃ res keys, r = some res ∧ res.memory = some keys ∧ keys.length = s ∧ (∀ k ∈ keys, k.length = nc) ∧ A keys

open Classical in
/-- **C70 (events).** After any history, for every statement `A` about the list of the outcomes of `s > 0` shots, the run returns a list for which
`A` is true with the probability that `A` is true of `s` independent executions. -/
theorem C70_events (hR : Hist cfg thr thrM cs h σ os) (hsq : ∀ x, 0 ≤ x → cfg.sqrt x * cfg.sqrt x = x) {c : Circ}
    (hc : Supported h.ms c) (hm : (classify c).stable = true → ∀ x ∈ c.data, x.op = .measure → x.cond = none)
    {o : Opts} (hmd : Measured c o) (hsv : o.saveSV = true → c.nq ≤ 30) {s : Nat} (h0 : 0 < s) (hs : o.shots = some s)
    (A : List (List Bool) → Prop) :
    Yields cfg (run c o) σ (Returned s c.nc A)
      (∑ ω ∈ (Fintype.piFinset fun _ : Fin s => allKeys c.nc).filter (fun ω => A (List.ofFn ω)), ∏ i, c.prob (ω i)) := by
  have hy : ∀ ω : Fin s → List Bool, Yields cfg (run c o) σ (Memory (List.ofFn ω)) (∏ i, c.prob (ω i)) := by
    intro ω
    have := C54_run_partial hR hsq hc hm hmd hsv (keys := List.ofFn ω) (by
      intro e
      have := congrArg List.length e
      rw [List.length_ofFn] at this
      simp at this; omega) (by rw [List.length_ofFn]; exact hs)
    rw [List.map_ofFn, List.prod_ofFn] at this
    exact this
  refine Yields.congr (fun r => ?_) (Yields.sum (hy fun _ => []) (T := fun ω r => Memory (List.ofFn ω) r) (x := fun ω => ∏ i, c.prob (ω i)) ?_ _
    fun ω _ => hy ω)
  · constructor
    · rintro ⟨ω, hω, res, rfl, hmem⟩
      rw [mem_filter, Fintype.mem_piFinset] at hω
      refine ⟨res, _, rfl, hmem, List.length_ofFn, fun k hk => ?_, hω.2⟩
      obtain ⟨i, rfl⟩ := (List.mem_ofFn' _ _).1 hk
      exact mem_allKeys.1 (hω.1 i)
    · rintro ⟨res, keys, rfl, hmem, hl, hk, hA⟩
      subst hl
      refine ⟨fun i => keys[i], ?_, res, rfl, ?_⟩
      · rw [mem_filter, Fintype.mem_piFinset]
        refine ⟨fun i => mem_allKeys.2 (hk _ (List.getElem_mem _)), ?_⟩
        simpa using hA
      · simpa using hmem
  · rintro ω ω' r ⟨res, rfl, h1⟩ ⟨res', h2, h3⟩
    cases h2
    rw [h1] at h3
    exact List.ofFn_injective (Option.some.inj h3)

/-- **C70 (answer).** With probability 1 the run returns `s` outcomes of `c.nc` characters. -/
theorem C70_answer (hR : Hist cfg thr thrM cs h σ os) (hsq : ∀ x, 0 ≤ x → cfg.sqrt x * cfg.sqrt x = x) {c : Circ}
    (hc : Supported h.ms c) (hm : (classify c).stable = true → ∀ x ∈ c.data, x.op = .measure → x.cond = none)
    {o : Opts} (hmd : Measured c o) (hsv : o.saveSV = true → c.nq ≤ 30) {s : Nat} (h0 : 0 < s) (hs : o.shots = some s) :
    Yields cfg (run c o) σ (Returned s c.nc fun _ => True) 1 := by
  classical
  refine cast (congrArg _ ?_) (C70_events hR hsq hc hm hmd hsv h0 hs fun _ => True)
  rw [← prod_total (t := fun _ : Fin s => allKeys c.nc) (w := fun _ => c.prob) fun _ => Circ.prob_total hc.fine]
  refine Finset.sum_congr ?_ fun _ _ => rfl
  ext ω
  simp

open Classical in
/-- **C70 (averages).** The average over the shots of any function of the outcome is within `ε` of its mean with probability at least
`1 - variance / (s ε^2)`. -/
theorem C70_average (hR : Hist cfg thr thrM cs h σ os) (hsq : ∀ x, 0 ≤ x → cfg.sqrt x * cfg.sqrt x = x) {c : Circ}
    (hc : Supported h.ms c) (hm : (classify c).stable = true → ∀ x ∈ c.data, x.op = .measure → x.cond = none)
    {o : Opts} (hmd : Measured c o) (hsv : o.saveSV = true → c.nq ≤ 30) {s : Nat} (h0 : 0 < s) (hs : o.shots = some s)
    (g : List Bool → ℝ) {ε : ℝ} (hε : 0 < ε) :
    ∃ x, Yields cfg (run c o) σ (Returned s c.nc fun keys => |(keys.map g).sum / s - ∑ k ∈ allKeys c.nc, c.prob k * g k| < ε) x ∧
      1 - (∑ k ∈ allKeys c.nc, c.prob k * (g k - ∑ k ∈ allKeys c.nc, c.prob k * g k) ^ 2) / (s * ε ^ 2) ≤ x := by
  refine ⟨_, C70_events hR hsq hc hm hmd hsv h0 hs _, ?_⟩
  have := chebyshev (ι := Fin s) (t := fun _ => allKeys c.nc) (ws := fun _ => c.prob) (fun _ => Circ.prob_total hc.fine) (fun _ => c.prob_nonneg) h0
    (a := id) Function.injective_id (fun _ => rfl) (fun _ => rfl) g hε
  refine this.trans (le_of_eq ?_)
  congr 1
  refine Finset.filter_congr fun ω _ => ?_
  rw [List.map_ofFn, List.sum_ofFn]
  rfl

open Classical in
/-- **C70.** After any history, the fraction of the shots of a run that give `key` differs from the probability of `key` by less than `ε` with
probability at least `1 - 1 / (4 s ε^2)`. -/
theorem C70_counts (hR : Hist cfg thr thrM cs h σ os) (hsq : ∀ x, 0 ≤ x → cfg.sqrt x * cfg.sqrt x = x) {c : Circ}
    (hc : Supported h.ms c) (hm : (classify c).stable = true → ∀ x ∈ c.data, x.op = .measure → x.cond = none)
    {o : Opts} (hmd : Measured c o) (hsv : o.saveSV = true → c.nq ≤ 30) {s : Nat} (h0 : 0 < s) (hs : o.shots = some s)
    (key : List Bool) {ε : ℝ} (hε : 0 < ε) :
    ∃ x, Yields cfg (run c o) σ (Returned s c.nc fun keys => |(counts keys key : ℝ) / s - c.prob key| < ε) x ∧ 1 - 1 / (4 * s * ε ^ 2) ≤ x := by
  refine ⟨_, C70_events hR hsq hc hm hmd hsv h0 hs _, ?_⟩
  exact chebyshev_count (ι := Fin s) (t := fun _ => allKeys c.nc) (ws := fun _ => c.prob) (fun _ => Circ.prob_total hc.fine) (fun _ => c.prob_nonneg) h0
    (a := id) Function.injective_id (fun _ => rfl) (fun _ => rfl) key (fun h => Circ.prob_length fun hl => h (mem_allKeys.2 hl)) hε

open Classical in
/-- A thousand shots of a circuit with a measurement in the middle, a condition and a reset: the frequency of an outcome is within 1/10 of its
probability with probability at least 39/40. -/
example (env : Env (C ℝ)) (mt : Bool) {thr thrM cs h σ os} (hR : Hist ⟨env, mt, Real.sqrt⟩ thr thrM cs h σ os) (k : List Bool) :
    ∃ x, Yields ⟨env, mt, Real.sqrt⟩ (run feedback ⟨some 1000, false⟩) σ
      (Returned 1000 2 fun keys => |(counts keys k : ℝ) / (1000 : ℕ) - feedback.prob k| < 1 / 10) x ∧ 39 / 40 ≤ x := by
  obtain ⟨x, hy, hx⟩ := C70_counts hR (fun x hx => Real.mul_self_sqrt hx) (feedback_supported h.ms) (by intro h; cases h) (o := ⟨some 1000, false⟩)
    (.inr (by decide)) (by simp) (s := 1000) (by norm_num) rfl k (ε := 1 / 10) (by norm_num)
  exact ⟨x, hy, le_trans (by norm_num) hx⟩

/-! ## The sampler -/

section Sampler
variable {Key : Type} [DecidableEq Key] {key : PCirc → Key} {tr : PCirc → PCirc} {P : PCirc → Prop}

theorem zipWith_ofFn {α β γ : Type} (f : α → β → γ) (l : List α) (g : Fin l.length → β) : List.zipWith f l (List.ofFn g) = List.ofFn fun e => f l[e] (g e) := by
  apply List.ext_getElem
  · simp
  · intro i h1 h2
    simp

/-- The quasi-distribution of a result with at least one shot is a probability distribution. -/
theorem quasi_distribution {r : Result} {mem : List (List Bool)} (hm : r.memory = some mem) (h0 : mem ≠ []) :
    (∀ k, 0 ≤ quasi r k) ∧ (∀ k, k ∉ mem → quasi r k = 0) ∧ ∑ k ∈ mem.toFinset, quasi r k = 1 := by
  have hq : ∀ k, quasi r k = (mem.count k : ℝ) / mem.length := fun k => by unfold quasi; rw [hm]
  have hl : (mem.length : ℝ) ≠ 0 := by
    have := List.length_pos_of_ne_nil h0
    exact_mod_cast this.ne'
  refine ⟨fun k => ?_, fun k hk => ?_, ?_⟩
  · rw [hq]; positivity
  · rw [hq, List.count_eq_zero_of_not_mem hk]; simp
  · simp only [hq]
    rw [← Finset.sum_div, div_eq_one_iff_eq hl]
    have : ∑ k ∈ mem.toFinset, mem.count k = mem.length := by
      rw [← List.sum_toFinset_count_eq_length mem]
      exact Finset.sum_congr rfl fun a _ => by congr!
    exact_mod_cast this

/-- One result per circuit; the memory of each has `N` outcomes of one character per clbit of the transpiled circuit. -/
def Sampled (tr : PCirc → PCirc) (ps : List PCirc) (vals : List (List ℝ)) (N : Nat) (rs : List Result) : Prop :=
  rs.length = ps.length ∧ ∀ e (h1 : e < rs.length) (h2 : e < ps.length) (h3 : e < vals.length), ∃ mem, rs[e].memory = some mem ∧ mem.length = N ∧
    ∀ k ∈ mem, k.length = (PCirc.withValues (tr ps[e]) vals[e]).nc

open Classical in
/-- **C47 (quasi-distributions).** Under the hypotheses of `C47_partial`, with probability at least `1 - 1 / (4 N ε^2)` the call returns one
result per circuit, whose quasi-distributions are probability distributions, and the `i`th gives `k` a value within `ε` of the probability that
circuit `i` with parameter values `i` gives `k`. -/
theorem C47_quasi_partial (hR : Hist cfg thr thrM cs h σ os) (hsq : ∀ x, 0 ≤ x → cfg.sqrt x * cfg.sqrt x = x)
    (hQ : Qiskit h.ms key tr P) {s : Sampler Key} (hs : SReach key tr P s) {ps : List PCirc} (hne : ps ≠ []) (hP : ∀ p ∈ ps, P p)
    {vals : List (List ℝ)} (hv : List.Forall₂ (fun p v => v.length = p.params.length) ps vals)
    (honce : ps.Pairwise fun p q => key p = key q → q.params = [])
    {shots : Shots} {others : List String} {N : Nat}
    (hN : (shots = .absent ∧ N = 1024) ∨ (shots = .int N ∧ 0 < N ∧ N ≤ 10 ^ 6))
    {i : Nat} (hi : i < ps.length) (hi' : i < vals.length) (k : List Bool) {ε : ℝ} (hε : 0 < ε) :
    ∃ x, Yields cfg (samplerRun key tr s ps vals shots others).2 σ (fun r => ∃ rs, r = some rs ∧ Sampled tr ps vals N rs ∧
        (∀ r ∈ rs, (∀ k, 0 ≤ quasi r k) ∧ ∃ K : Finset (List Bool), (∀ k, k ∉ K → quasi r k = 0) ∧ ∑ k ∈ K, quasi r k = 1) ∧
        ∃ r, rs[i]? = some r ∧ |quasi r k - (PCirc.withValues ps[i] vals[i]).prob k| < ε) x ∧
      1 - 1 / (4 * N * ε ^ 2) ≤ x := by
  have hN0 : 0 < N := by rcases hN with ⟨_, h⟩ | ⟨_, h, _⟩ <;> omega
  have hlv := hv.length_eq
  set E := List.zipWith PCirc.withValues ps vals with hE
  have hEl : E.length = ps.length := by rw [hE]; simp; omega
  -- the distributions
  have hex : ∀ e : Fin E.length, ∃ n, ∑ k ∈ allKeys n, E[e].prob k = 1 ∧ (∀ k, k.length ≠ n → E[e].prob k = 0) ∧
      ∀ (h2 : e.1 < ps.length) (h3 : e.1 < vals.length), n = (PCirc.withValues (tr ps[e.1]) vals[e.1]).nc := by
    intro e
    have he : e.1 < ps.length := by have := e.2; omega
    have hPe := hP _ (List.getElem_mem he)
    set v : Nat → ℝ := fun k => ((ps[e.1].params.zip (vals[e.1]'(by omega))).lookup k).getD 0 with hvd
    have hee : E[e] = ps[e.1].at_ v := by simp [hE, PCirc.withValues, hvd]
    have ha := (hQ.transpile _ hPe).2 v
    refine ⟨((tr ps[e.1]).at_ v).nc, ?_, fun k hk => ?_, fun _ _ => by rw [PCirc.withValues, (hQ.transpile _ hPe).1]⟩
    · rw [hee]
      simp only [← ha]
      exact Circ.prob_total ((hQ.runs _ hPe).supported v).fine
    · rw [hee, ← ha]; exact Circ.prob_length hk
  choose n hn1 hn2 hn3 using hex
  set t : Fin E.length × Fin N → Finset (List Bool) := fun x => allKeys (n x.1) with ht
  have hy : ∀ ω : Fin E.length × Fin N → List Bool, Yields cfg (samplerRun key tr s ps vals shots others).2 σ (Memories (memories ω))
      (∏ x : Fin E.length × Fin N, E[x.1].prob (ω x)) := by
    intro ω
    have := C47_partial hR hsq hQ hs hne hP hv honce hN (others := others) (keyss := memories ω) (by simp [memories, hEl]) (by
      intro k hk
      obtain ⟨e, rfl⟩ := (List.mem_ofFn' _ _).1 hk
      simp)
    rw [← hE, memories, zipWith_ofFn, List.prod_ofFn] at this
    refine cast (congrArg _ ?_) this
    rw [Fintype.prod_prod_type]
    refine Finset.prod_congr rfl fun e _ => ?_
    rw [List.map_ofFn, List.prod_ofFn]
    rfl
  have hiE : i < E.length := by omega
  have hci : E[i] = PCirc.withValues ps[i] vals[i] := by simp [hE]
  have hch := chebyshev_count (ι := Fin E.length × Fin N) (t := t) (ws := fun x => E[x.1].prob) (fun x => hn1 x.1) (fun x => Circ.prob_nonneg _) hN0
    (a := fun j => (⟨i, hiE⟩, j)) (fun a b hab => (Prod.ext_iff.1 hab).2) (S := allKeys (n ⟨i, hiE⟩)) (w := E[i].prob) (fun _ => rfl) (fun _ => rfl) k
    (fun h => hn2 ⟨i, hiE⟩ k fun hl => h (mem_allKeys.2 hl)) hε
  have hsum := Yields.sum (hy fun _ => []) (T := fun ω r => Memories (memories ω) r) (x := fun ω => ∏ x : Fin E.length × Fin N, E[x.1].prob (ω x)) ?_
    ((Fintype.piFinset t).filter (fun ω => |((List.ofFn fun j => ω (⟨i, hiE⟩, j)).count k : ℝ) / N - E[i].prob k| < ε)) fun ω _ => hy ω
  · refine ⟨_, Yields.congr (fun r => ?_) hsum, hch⟩
    have hN' : ∀ mem : List (List Bool), mem.length = N → mem ≠ [] := fun mem hm h0 => by rw [h0] at hm; simp at hm; omega
    constructor
    · rintro ⟨ω, hω, rs, rfl, hmem⟩
      rw [mem_filter, Fintype.mem_piFinset] at hω
      have hl : rs.length = E.length := by simpa [memories] using congrArg List.length hmem
      have hget : ∀ e (h1 : e < rs.length) (h2 : e < E.length), rs[e].memory = some (List.ofFn fun j => ω (⟨e, h2⟩, j)) := by
        intro e h1 h2
        have := congrArg (·[e]?) hmem
        simpa [memories, h1, h2] using this
      refine ⟨rs, rfl, ⟨by omega, fun e h1 h2 h3 => ⟨_, hget e h1 (by omega), List.length_ofFn, fun k hk => ?_⟩⟩, fun r hr => ?_, rs[i], ?_, ?_⟩
      · obtain ⟨j, rfl⟩ := (List.mem_ofFn' _ _).1 hk
        rw [← hn3 ⟨e, by omega⟩ h2 h3]
        exact mem_allKeys.1 (hω.1 (⟨e, by omega⟩, j))
      · obtain ⟨e, he, rfl⟩ := List.getElem_of_mem hr
        obtain ⟨q1, q2, q3⟩ := quasi_distribution (hget e he (by omega)) (hN' _ (by simp))
        exact ⟨q1, _, fun k hk => q2 k (by simpa using hk), q3⟩
      · simp [show i < rs.length by omega]
      · unfold quasi
        rw [hget i (by omega) hiE]
        dsimp only
        rw [List.length_ofFn, ← hci]
        exact hω.2
    · rintro ⟨rs, rfl, ⟨hl, hall⟩, -, r, hr, hq⟩
      choose mem m1 m2 m3 using fun e : Fin E.length => hall e.1 (by have := e.2; omega) (by have := e.2; omega) (by have := e.2; omega)
      refine ⟨fun x => (mem x.1)[x.2.1]'(by rw [m2]; exact x.2.2), ?_, rs, rfl, ?_⟩
      · rw [mem_filter, Fintype.mem_piFinset]
        constructor
        · rintro ⟨e, j⟩
          refine mem_allKeys.2 ?_
          rw [m3 e _ (List.getElem_mem _)]
          exact (hn3 e _ _).symm
        · have e1 : (List.ofFn fun j : Fin N => (mem ⟨i, hiE⟩)[j.1]'(by rw [m2]; exact j.2)) = mem ⟨i, hiE⟩ := by
            apply List.ext_getElem
            · simp [m2]
            · intro a h1 h2; simp
          dsimp only
          rw [e1]
          have hri : r = rs[i]'(by omega) := by
            rw [List.getElem?_eq_getElem (by omega)] at hr
            exact (Option.some.inj hr).symm
          rw [hri] at hq
          unfold quasi at hq
          rw [m1 ⟨i, hiE⟩] at hq
          dsimp only at hq
          rw [m2] at hq
          rw [hci]
          exact hq
      · apply List.ext_getElem
        · simp [memories]; omega
        · intro e h1 h2
          have he : e < E.length := by simpa [memories] using h2
          simp only [List.getElem_map, memories, List.getElem_ofFn]
          rw [m1 ⟨e, he⟩]
          congr 1
          apply List.ext_getElem
          · simp [m2]
          · intro a h1 h2; simp
  · rintro ω ω' r ⟨rs, rfl, h1⟩ ⟨rs', h2, h3⟩
    cases h2
    rw [h1] at h3
    have := List.map_injective_iff.2 (Option.some_injective _) h3
    unfold memories at this
    have h4 := List.ofFn_injective this
    funext ⟨e, j⟩
    exact congrFun (List.ofFn_injective (congrFun h4 e)) j

open Classical in
/-- `[x, rx, x]` with values `[[], [θ], []]` and a thousand shots on a sampler used before. -/
example (hR : Hist cfg thr thrM cs h σ os) (hsq : ∀ x, 0 ≤ x → cfg.sqrt x * cfg.sqrt x = x) (θ : ℝ) (k : List Bool) :
    ∃ x, Yields cfg (samplerRun id id (samplerRun id id (.new : Sampler PCirc) [rxP] [[1]] .absent []).1 [xP, rxP, xP] [[], [θ], []]
      (.int 1000) []).2 σ (fun r => ∃ rs, r = some rs ∧ Sampled id [xP, rxP, xP] [[], [θ], []] 1000 rs ∧
        (∀ r ∈ rs, (∀ k, 0 ≤ quasi r k) ∧ ∃ K : Finset (List Bool), (∀ k, k ∉ K → quasi r k = 0) ∧ ∑ k ∈ K, quasi r k = 1) ∧
        ∃ r, rs[1]? = some r ∧ |quasi r k - (PCirc.withValues rxP [θ]).prob k| < 1 / 10) x ∧ 39 / 40 ≤ x := by
  obtain ⟨x, hy, hx⟩ := C47_quasi_partial (s := (samplerRun id id (.new : Sampler PCirc) [rxP] [[1]] .absent []).1) hR hsq (qiskit_demo h.ms)
    (SReach.call SReach.new (by simp)) (ps := [xP, rxP, xP]) (by simp) (by simp) (vals := [[], [θ], []])
    (.cons rfl (.cons rfl (.cons rfl .nil))) (by
      simp only [List.pairwise_cons, List.mem_cons, List.mem_nil_iff, or_false, id, List.Pairwise.nil, and_true]
      refine ⟨?_, ?_, fun _ h => h.elim⟩
      · rintro q (rfl | rfl) h
        · exact absurd (congrArg PCirc.params h) (by simp [xP, rxP])
        · rfl
      · rintro q rfl h; rfl) (shots := .int 1000) (N := 1000) (.inr ⟨rfl, by norm_num, by norm_num⟩)
    (others := []) (i := 1) (by simp) (by simp) k (ε := 1 / 10) (by norm_num)
  exact ⟨x, hy, le_trans (by norm_num) hx⟩

end Sampler

end QDD.Props
