import Verif.Props.Unitary
/-!
# C18, C19, C20, C21, C28, C29: garbage collection, serialisation, files, histories, schedules
-/

set_option linter.unusedSectionVars false
set_option linter.unusedVariables false
set_option linter.unusedSimpArgs false

namespace QDD.Props
open Spec Api Finset ExactW

variable {K : Type} [Field K] [LinearOrder K] [IsStrictOrderedRing K]
variable {cfg : Cfg K} {thr thrM : Nat} {cs : List (Cmd K)} {h : Heap K} {σ : Sys K} {os : List (Obs K)}

theorem mapM_some {α : Type} {l : List α} : ∀ (keep : List Nat), (∀ i ∈ keep, ∃ V, l[i]? = some V) →
    ∃ r, keep.mapM (l[·]?) = some r ∧ r.length = keep.length ∧
      ∀ (j i : Nat), keep[j]? = some i → r[j]? = l[i]? := by
  intro keep
  induction keep with
  | nil => intro _; exact ⟨[], rfl, rfl, by simp⟩
  | cons a keep ih =>
    intro hk
    obtain ⟨V, hV⟩ := hk a (by simp)
    obtain ⟨r, h1, h2, h3⟩ := ih fun i hi => hk i (by simp [hi])
    refine ⟨V :: r, by simp [List.mapM_cons, hV, h1], by simp [h2], fun j i hj => ?_⟩
    cases j with
    | zero => simp at hj; subst hj; simp [hV]
    | succ j => simp at hj; simpa using h3 j i hj

/-! ## C18, C19 -/

/-- **C18.** `gc(states, force)` for any list `keep` of live states (repetitions allowed): it succeeds; the `j`-th returned
state reads out exactly as state `keep[j]` did, and every matrix reads out as before.  (That everything computed later
is right too is `C28`: the history goes on from the same values.) -/
theorem C18_gc (hR : Hist cfg thr thrM cs h σ os) (force : Bool) {keep : List Nat}
    (hk : ∀ i ∈ keep, ∃ V, h.vs[i]? = some V) :
    Returns cfg σ (.gc force keep) .unit ∧ ∀ o σ', Exec cfg σ (.gc force keep) o σ' →
      (∀ j i n f, keep[j]? = some i → (∃ V, h.vs[i]? = some V ∧ V.k = n ∧ n ≤ 30 ∧ V.Nonzero) →
        ReadsV cfg σ i n f → ReadsV cfg σ' j n f) ∧
      (∀ m n F, (∃ M, h.ms[m]? = some M ∧ M.k ≤ n ∧ n ≤ 30) → ReadsM cfg σ m n F → ReadsM cfg σ' m n F) := by
  obtain ⟨r, h1, h2, h3⟩ := mapM_some keep hk
  have hp : pre NQUBITS h (.gc force keep) := hk
  have hs : Spec.step cfg.sqrt h (.gc force keep) = some (⟨r, h.ms⟩, .unit) := by
    simp only [Spec.step, h1, Option.bind_eq_bind, Option.bind_some]
  refine ⟨hR.returns hp hs, fun o σ' he => ⟨?_, ?_⟩⟩
  · rintro j i n f hj ⟨V, hV, rfl, hn, hz⟩ hf
    refine ReadsV.congr ((hR.after hp hs he).readsV (v := j) (V := V) ?_ hz hn) fun x hx =>
      ((hf.unique (hR.readsV hV hz hn)) x hx).symm
    dsimp only
    rw [h3 j i hj, hV]
  · rintro m n F ⟨M, hM, hmn, hn⟩ hF
    exact ReadsM.congr ((hR.after hp hs he).readsM (m := m) (M := M) hM hmn hn) fun x hx y hy =>
      ((hF.unique (hR.readsM hM hmn hn)) x hx y hy).symm

/-- **C19.** `gc_mat(mats, force)`: the `j`-th returned matrix reads out at every qubit count exactly as matrix `keep[j]`
did, and every state reads out as before. -/
theorem C19_gc_mat (hR : Hist cfg thr thrM cs h σ os) (force : Bool) {keep : List Nat}
    (hk : ∀ i ∈ keep, ∃ M, h.ms[i]? = some M) :
    Returns cfg σ (.gcMat force keep) .unit ∧ ∀ o σ', Exec cfg σ (.gcMat force keep) o σ' →
      (∀ j i n F, keep[j]? = some i → (∃ M, h.ms[i]? = some M ∧ M.k ≤ n ∧ n ≤ 30) →
        ReadsM cfg σ i n F → ReadsM cfg σ' j n F) ∧
      (∀ v n f, (∃ V, h.vs[v]? = some V ∧ V.k = n ∧ n ≤ 30 ∧ V.Nonzero) → ReadsV cfg σ v n f → ReadsV cfg σ' v n f) := by
  obtain ⟨r, h1, h2, h3⟩ := mapM_some keep hk
  have hp : pre NQUBITS h (.gcMat force keep) := hk
  have hs : Spec.step cfg.sqrt h (.gcMat force keep) = some (⟨h.vs, r⟩, .unit) := by
    simp only [Spec.step, h1, Option.bind_eq_bind, Option.bind_some]
  refine ⟨hR.returns hp hs, fun o σ' he => ⟨?_, ?_⟩⟩
  · rintro j i n F hj ⟨M, hM, hmn, hn⟩ hF
    refine ReadsM.congr ((hR.after hp hs he).readsM (m := j) (M := M) ?_ hmn hn) fun x hx y hy =>
      ((hF.unique (hR.readsM hM hmn hn)) x hx y hy).symm
    dsimp only
    rw [h3 j i hj, hM]
  · rintro v n f ⟨V, hV, rfl, hn, hz⟩ hf
    exact ReadsV.congr ((hR.after hp hs he).readsV (v := v) (V := V) hV hz hn) fun x hx =>
      ((hf.unique (hR.readsV hV hz hn)) x hx).symm

/-! ## C20 -/

/-- `vec_to_vNode(vNode_to_vec(n))` of handle `v` of the process state `σ0`, rebuilt in the process state `σ` by the
thread `tid` with the root weight carried along (dd.cpp 2294-2321; `receive_dd`/`send_dd` do this between ranks). -/
def transfer (cfg : Cfg K) (tid : Nat) (σ0 : Sys K) (v : Nat) (σ : Sys K) : Except Err (Sys K) :=
  match σ0.d.vs[v]? with
  | none => .error .oob
  | some e => match saveBinary σ0.st e with
    | .error er => .error er
    | .ok file => match fromVec cfg.env.hv tid false file σ.st.vt with
      | .error er => .error er
      | .ok (n, vt) => .ok ⟨σ.d.addV ⟨e.w, n⟩, { σ.st with vt := vt }⟩

/-- **C20 (round trip).** Serialising a state reached in one process and rebuilding it in any state of another process (or
the same one later) succeeds, and the target machine then represents its old values plus the transferred one; so
every later call behaves accordingly. -/
theorem C20_transfer {cfg0 : Cfg K} {thr0 thrM0 : Nat} {cs0 : List (Cmd K)} {h0 : Heap K} {σ0 : Sys K}
    {os0 : List (Obs K)} (hR0 : Hist cfg0 thr0 thrM0 cs0 h0 σ0 os0) (hR : Hist cfg thr thrM cs h σ os) (tid : Nat)
    {v : Nat} {V : Vec K} (hv : h0.vs[v]? = some V) :
    ∃ σ', transfer cfg tid σ0 v σ = .ok σ' ∧ Rel cfg.env σ' (h.addV V) := by
  obtain ⟨e, he, rel⟩ := forall₂_get hR0.rel.data.vs hv
  obtain ⟨file, f1, n', vt', f2, f3, f4, f5⟩ := transfer_spec hR0.rel.inv hR.rel.inv rel.2.1 tid
  refine ⟨⟨σ.d.addV ⟨e.w, n'⟩, { σ.st with vt := vt' }⟩, ?_, f3, ?_⟩
  · simp only [transfer, he, f1, f2]
  · refine (hR.rel.data.ext hR.rel.inv f4).addV ⟨rel.1, ?_, fun i hi => ?_⟩
    · exact Iso.vok (s := σ0.st) (s' := { σ.st with vt := vt' }) (a := e) (b := ⟨e.w, n'⟩) f5 rfl rel.2.1
    · rw [← rel.2.2 i hi]
      unfold vden
      rw [f5.vptr i]

/-- **C20 (round trip, as read-outs).** -/
theorem C20_transfer_readout {cfg0 : Cfg K} {thr0 thrM0 : Nat} {cs0 : List (Cmd K)} {h0 : Heap K} {σ0 : Sys K}
    {os0 : List (Obs K)} (hR0 : Hist cfg0 thr0 thrM0 cs0 h0 σ0 os0) (hR : Hist cfg thr thrM cs h σ os) (tid : Nat)
    {v n : Nat} {V : Vec K} (hv : h0.vs[v]? = some V) (hV : V.k = n) (hn : n ≤ 30) (hz : V.Nonzero) {f : Nat → C K}
    (hf : ReadsV cfg0 σ0 v n f) :
    ∃ σ', transfer cfg tid σ0 v σ = .ok σ' ∧ ReadsV cfg σ' h.vs.length n f := by
  subst hV
  obtain ⟨σ', h1, h2⟩ := C20_transfer hR0 hR tid hv
  exact ⟨σ', h1, ReadsV.congr (Rel.readsV h2 (addV_new _ _) hz hn) fun i hi =>
    ((hf.unique (hR0.readsV hv hz hn)) i hi).symm⟩

/-- **C20 (same table).** Rebuilding in the table the diagram came from yields the very same node. -/
theorem C20_same_node (hR : Hist cfg thr thrM cs h σ os) (tid : Nat) {v : Nat} {V : Vec K} (hv : h.vs[v]? = some V) :
    ∃ e σ', σ.d.vs[v]? = some e ∧ transfer cfg tid σ v σ = .ok σ' ∧ σ'.d.vs[h.vs.length]? = some e := by
  obtain ⟨e, he, rel⟩ := forall₂_get hR.rel.data.vs hv
  obtain ⟨file, vt', f1, f2⟩ := rebuild_same hR.rel.inv rel.2.1 tid
  refine ⟨e, ⟨σ.d.addV e, { σ.st with vt := vt' }⟩, he, ?_, ?_⟩
  · simp only [transfer, he, f1, f2]
  · have := hR.rel.data.vs.length_eq
    simp [Data.addV, this]

/-- **C20 (node count).** `get_nNodes` returns the number of distinct nonterminal nodes reachable from the root. -/
theorem C20_get_nNodes (hR : Hist cfg thr thrM cs h σ os) {v : Nat} {V : Vec K} (hv : h.vs[v]? = some V) :
    ∃ e, σ.d.vs[v]? = some e ∧ ∃ l : List Nat, getNNodes σ.st e = .ok l.length ∧ l.Nodup ∧
      ∀ p, p ∈ l ↔ Reach cfg.env.hv σ.st.vt e.n (some p) := by
  obtain ⟨e, he, rel⟩ := forall₂_get hR.rel.data.vs hv
  exact ⟨e, he, getNNodes_spec hR.rel.inv rel.2.1⟩

/-! ## C21 -/

/-- `save_binary` of handle `v` in one process, `load_binary` in another (dd.cpp 2168-2187). -/
def saveLoad (cfg : Cfg K) (tid : Nat) (σ0 : Sys K) (v : Nat) (σ : Sys K) : Except Err (Sys K) :=
  match σ0.d.vs[v]? with
  | none => .error .oob
  | some e => match saveBinary σ0.st e with
    | .error er => .error er
    | .ok file => match loadBinary cfg.env tid file σ.st with
      | .error er => .error er
      | .ok (e', s') => .ok ⟨σ.d.addV e', s'⟩

/-- Every stored vector has an entry that is exactly 1. -/
theorem vptr_one {env : Env (C K)} {s : St (C K)} (hi : Inv env s) : ∀ {k n}, VPtrOk env s k n →
    ∃ i, i < 2 ^ k ∧ vptr s.vt.mem k n i = 1 := by
  intro k
  induction k with
  | zero => intro n _; exact ⟨0, by simp, by simp [vptr]⟩
  | succ k ih =>
    intro n h
    rcases h with ⟨h, _⟩ | ⟨p, nd, rfl, h2, h3⟩
    · cases h
    · have hk : nd.v = k := by push_cast at h3; omega
      have hn := hi.vn p nd h2
      obtain ⟨b, hb⟩ := hn.maxChild
      rcases hn.ok b hk with hc | ⟨hw, _⟩
      · obtain ⟨i, hi1, hi2⟩ := ih hc
        refine ⟨bidx k b i, bidx_lt hi1 b, ?_⟩
        rw [vptr_top h2.1 b hi1, vden, hb, one_mul]
        exact hi2
      · rw [hb] at hw; exact (one_ne_zero hw).elim

/-- **C21, partial.** Saving a nonzero state and loading it gives the state divided by its root weight: the loaded state
`W` satisfies `V = w * W` and has an entry equal to 1.  Missing: `w` is not stored in the file, so the loaded state
is the saved one only if `w = 1` (see `C21_load_wrong`). -/
theorem C21_save_load_partial {cfg0 : Cfg K} {thr0 thrM0 : Nat} {cs0 : List (Cmd K)} {h0 : Heap K} {σ0 : Sys K}
    {os0 : List (Obs K)} (hR0 : Hist cfg0 thr0 thrM0 cs0 h0 σ0 os0) (hR : Hist cfg thr thrM cs h σ os) (tid : Nat)
    {v : Nat} {V : Vec K} (hv : h0.vs[v]? = some V) (hz : V.Nonzero) :
    ∃ e σ' W, σ0.d.vs[v]? = some e ∧ e.w ≠ 0 ∧ saveLoad cfg tid σ0 v σ = .ok σ' ∧ Rel cfg.env σ' (h.addV W) ∧
      W.k = V.k ∧ (∀ i < 2 ^ V.k, V.f i = e.w * W.f i) ∧ ∃ i < 2 ^ V.k, W.f i = 1 := by
  obtain ⟨e, he, rel⟩ := forall₂_get hR0.rel.data.vs hv
  obtain ⟨hp, hw⟩ := rel.nonzero hz
  obtain ⟨file, e', s', f1, f2, f3, f4, f5⟩ := load_spec hR0.rel.inv hR.rel.inv hp tid
  obtain ⟨i, hi, hi1⟩ := vptr_one hR0.rel.inv hp
  refine ⟨e, ⟨σ.d.addV e', s'⟩, ⟨V.k, vptr σ0.st.vt.mem V.k e.n⟩, he, hw, ?_, ⟨f3, ?_⟩, rfl, fun i hi => ?_, i, hi, hi1⟩
  · simp only [saveLoad, he, f1, f2]
  · exact (hR.rel.data.ext hR.rel.inv f4).addV (VRel.of_rep rel.1 f5 fun i _ => rfl)
  · rw [← rel.2.2 i hi]; rfl

/-- **C21 fails.** A saved nonzero state none of whose amplitudes is exactly 1 is never what `load_binary` returns: the
loaded state reads out differently. -/
theorem C21_load_wrong {cfg0 : Cfg K} {thr0 thrM0 : Nat} {cs0 : List (Cmd K)} {h0 : Heap K} {σ0 : Sys K}
    {os0 : List (Obs K)} (hR0 : Hist cfg0 thr0 thrM0 cs0 h0 σ0 os0) (hR : Hist cfg thr thrM cs h σ os) (tid : Nat)
    {v n : Nat} {V : Vec K} (hv : h0.vs[v]? = some V) (hV : V.k = n) (hn : n ≤ 30) (hz : V.Nonzero) {f : Nat → C K}
    (hf : ReadsV cfg0 σ0 v n f) (hno : ∀ i < 2 ^ n, f i ≠ 1) :
    ∃ σ' g, saveLoad cfg tid σ0 v σ = .ok σ' ∧ ReadsV cfg σ' h.vs.length n g ∧ ∃ i < 2 ^ n, g i ≠ f i := by
  subst hV
  obtain ⟨e, σ', W, h1, h2, h3, h4, h5, h6, i, hi, h7⟩ := C21_save_load_partial hR0 hR tid hv hz
  refine ⟨σ', W.f, h3, ?_, i, hi, ?_⟩
  · have := Rel.readsV h4 (addV_new _ _) ⟨i, by rw [h5]; exact hi, by rw [h7]; exact one_ne_zero⟩ (by omega)
    rwa [h5] at this
  · rw [h7]; exact (hno i hi).symm

/-- **C21, exactly.** What `load_binary` returns for a saved nonzero state is that state divided by one of its nonzero
amplitudes; so it is the saved state if and only if that amplitude is 1. -/
theorem C21_exactly {cfg0 : Cfg K} {thr0 thrM0 : Nat} {cs0 : List (Cmd K)} {h0 : Heap K} {σ0 : Sys K}
    {os0 : List (Obs K)} (hR0 : Hist cfg0 thr0 thrM0 cs0 h0 σ0 os0) (hR : Hist cfg thr thrM cs h σ os) (tid : Nat)
    {v n : Nat} {V : Vec K} (hv : h0.vs[v]? = some V) (hV : V.k = n) (hn : n ≤ 30) (hz : V.Nonzero) {f : Nat → C K}
    (hf : ReadsV cfg0 σ0 v n f) :
    ∃ σ' g, saveLoad cfg tid σ0 v σ = .ok σ' ∧ ReadsV cfg σ' h.vs.length n g ∧
      ∃ m < 2 ^ n, f m ≠ 0 ∧ (∀ i < 2 ^ n, f i = f m * g i) ∧ ((∀ i < 2 ^ n, g i = f i) ↔ f m = 1) := by
  subst hV
  obtain ⟨e, σ', W, h1, h2, h3, h4, h5, h6, i, hi, h7⟩ := C21_save_load_partial hR0 hR tid hv hz
  have hfV : ∀ j < 2 ^ V.k, f j = V.f j :=
    ReadsV.unique hf (hR0.readsV hv hz hn)
  refine ⟨σ', W.f, h3, ?_, i, hi, ?_, ?_, ?_⟩
  · have := Rel.readsV h4 (addV_new _ _) ⟨i, by rw [h5]; exact hi, by rw [h7]; exact one_ne_zero⟩ (by omega)
    rwa [h5] at this
  · rw [hfV i hi, h6 i hi, h7, mul_one]; exact h2
  · intro j hj
    rw [hfV j hj, h6 j hj, hfV i hi, h6 i hi, h7, mul_one]
  · constructor
    · intro hg
      rw [← hg i hi, h7]
    · intro h1 j hj
      have hw : e.w = 1 := by rw [← h1, hfV i hi, h6 i hi, h7, mul_one]
      rw [hfV j hj, h6 j hj, hw, one_mul]

/-! ## C28, C29 -/

/-- **C28.** The answers of any history of calls, in any build and under any schedule, are those of the same calls on
plain vectors and matrices. -/
theorem C28_history (hR : Hist cfg thr thrM cs h σ os) : Runs cfg.sqrt NQUBITS cs h os := hR.runs

/-- **C28 (the answers are determined).** Two runs of the same calls, possibly in different builds, with different hash
functions, gc thresholds and schedules, give the same answers. -/
theorem C28_deterministic {cfg' : Cfg K} {thr' thrM' : Nat} {h' : Heap K} {σ' : Sys K} {os' : List (Obs K)}
    (hsq : cfg.sqrt = cfg'.sqrt) (hR : Hist cfg thr thrM cs h σ os) (hR' : Hist cfg' thr' thrM' cs h' σ' os') :
    h = h' ∧ os = os' := by
  have r1 := hR.runs
  have r2 := hR'.runs
  rw [← hsq] at r2
  clear hR hR'
  induction r1 generalizing h' os' with
  | nil =>
    generalize hc : ([] : List (Cmd K)) = l at r2
    cases r2 with
    | nil => exact ⟨rfl, rfl⟩
    | cons _ _ _ => simp at hc
  | @cons cs0 hh oo c h1 o _ hp hs ih =>
    generalize hc : cs0 ++ [c] = l at r2
    cases r2 with
    | nil => simp at hc
    | cons r hp' hs' =>
      obtain ⟨e1, e2⟩ := List.append_inj' hc rfl
      cases e2
      subst e1
      obtain ⟨e3, e4⟩ := ih r
      subst e3 e4
      rw [hs] at hs'
      cases hs'
      exact ⟨rfl, rfl⟩

/-- **C28 (totality).** Every sequence of calls that respects the preconditions on plain values can be executed. -/
theorem C28_total (cfg : Cfg K) (thr thrM : Nat) {cs h os} (hR : Runs cfg.sqrt NQUBITS cs h os) :
    ∃ σ, Hist cfg thr thrM cs h σ os := Hist.of_runs cfg thr thrM hR

/-- **C29.** In the multi-threaded build (`cfg.mt = true`) `mv_multiply`, under every interleaving of its fibers on any
threads: no infinite schedule, no error, no dead end, and the result has exactly the entries of the product (for every
qubit count; `C01` states it for read-outs). -/
theorem C29_mt (hmt : cfg.mt = true) (hR : Hist cfg thr thrM cs h σ os) {m v : Nat} {M : Mat K} {V : Vec K}
    (hm : h.ms[m]? = some M) (hv : h.vs[v]? = some V) (hk : M.k ≤ V.k) :
    Returns cfg σ (.mv m v) .unit ∧
    (∀ o σ', Exec cfg σ (.mv m v) o σ' → Hist cfg thr thrM (cs ++ [.mv m v])
      ⟨h.vs ++ [⟨V.k, fun i => ∑ j ∈ range (2 ^ V.k), M.at V.k i j * V.f j⟩], h.ms⟩ σ' (os ++ [o])) ∧
    ∀ fk (p : Nat → P (C K) (Data K × Obs K)) (s : Nat → St (C K)), p 0 = prog cfg fk σ.d (.mv m v) →
      ¬ ∀ n, Prog.Step (p n) (s n) (p (n + 1)) (s (n + 1)) := by
  have hp : pre NQUBITS h (.mv m v) := ⟨M, V, hm, hv, hk⟩
  have hs : Spec.step cfg.sqrt h (.mv m v) = some (h.addV (M.apply V), .unit) := by
    simp only [Spec.step, hm, hv, Option.bind_eq_bind, Option.bind_some]
  exact ⟨hR.returns hp hs, fun o σ' he => hR.after hp hs he,
    fun fk p s h0 hst => no_infinite_schedule cfg fk σ.d (.mv m v) p s h0 hst⟩

/-- **C29 (same answers as serial).** A history in the multi-threaded build and one in the serial build give the same
answers to the same calls. -/
theorem C29_serial {cfg' : Cfg K} {thr' thrM' : Nat} {h' : Heap K} {σ' : Sys K} {os' : List (Obs K)}
    (hsq : cfg.sqrt = cfg'.sqrt) (hmt : cfg.mt = true) (hser : cfg'.mt = false) (hR : Hist cfg thr thrM cs h σ os)
    (hR' : Hist cfg' thr' thrM' cs h' σ' os') : os = os' := (C28_deterministic hsq hR hR').2

end QDD.Props
