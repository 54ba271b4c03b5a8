import Verif.Py.Pauli
import Verif.Py.Sampler
/-!
# Model of qdd/qdd_estimator.py

`_run` (141-178), `_compute` (180-292), `_pre_process_params` (294-315), `_flatten` (317-334),
`_calculate_result_index` (375-387), `_create_post_processing` (389-439), `_PostProcessing.run` (489-570),
`_pauli_expval_with_variance` (581-601), `_pauli_expval_with_variance_from_dist` (604-618), `_paulis2basis` (638-644).  Not
modelled: variances and metadata, the normal noise of `approximation=True` with a number of shots (523-527), overlapping calls.
-/

set_option linter.unusedSectionVars false
set_option linter.unusedVariables false
set_option linter.unusedSimpArgs false

namespace QDD.Py
open Spec Api Gate Finset Props Client

noncomputable section

variable {Key : Type} [DecidableEq Key]

/-- `SparsePauliOp`: Pauli operators with (real) coefficients. -/
abbrev Observ := List (Pauli × ℝ)

/-! ## Model -/

/-- What `_cache` holds (qdd_estimator.py 238): the experiments per circuit, each with its basis (the metadata), and for
each circuit the bases of the terms of each observable. -/
structure Prepared where
  exps : List (Nat × List (PCirc × Pauli))
  maps : List (Nat × (Nat → List Nat))

/-- `Estimator` (qdd_estimator.py 81-126): the tables of circuits (as in the sampler), of observables, and `_cache`.  The
table of transpiled circuits is not modelled separately: `prep` below is a function of the circuit. -/
structure Est (Key : Type) where
  base : Sampler Key
  obs : List Observ
  cache : List ((List Nat × List Nat) × Prepared)

def Est.new : Est Key := ⟨.new, [], []⟩

open Classical in
/-- The loop over the observables in `_run` (qdd_estimator.py 157-169).  Simplified: `_observable_key` (the contents of the
operator) is the operator itself. -/
def regObs : List Observ → List Observ → List Observ × List Nat
  | [], tab => (tab, [])
  | o :: os, tab =>
    if o ∈ tab then ((regObs os tab).1, tab.idxOf o :: (regObs os tab).2)
    else ((regObs os (tab ++ [o])).1, tab.length :: (regObs os (tab ++ [o])).2)

/-- `circ_obs_map[c].append(o)` (qdd_estimator.py 205-207). -/
def pushObs (d : List (Nat × List Nat)) (co : Nat × Nat) : List (Nat × List Nat) :=
  if co.1 ∈ d.map Prod.fst then d.map fun x => if x.1 = co.1 then (x.1, x.2 ++ [co.2]) else x else d ++ [(co.1, [co.2])]

/-- The bases of a term: the first group that contains it (qdd_estimator.py 221-226). -/
def termBase (gs : List (List Pauli)) (p : Pauli) : List Nat := (gs.findIdx? fun g => decide (p ∈ g)).toList

/-- `obs_map` (qdd_estimator.py 219-226): `obs_map[o]` is extended once per occurrence of `o`. -/
def obsMap (gs : List (List Pauli)) : List (Nat × Observ) → (Nat → List Nat) → Nat → List Nat
  | [], m => m
  | (o, ts) :: r, m => obsMap gs r fun o' => if o' = o then m o' ++ ts.flatMap fun t => termBase gs t.1 else m o'

/-- `_paulis2basis` (qdd_estimator.py 638-644). -/
def basisOf (g : List Pauli) : Pauli :=
  (List.range (g.headD []).length).map fun q => (g.any fun p => (p.on q).1, g.any fun p => (p.on q).2)

/-- The identity (qdd_estimator.py 230, 411). -/
def Pauli.isId (p : Pauli) : Bool := p.all fun b => !b.1 && !b.2

/-- The loop over the circuits (qdd_estimator.py 212-237).  `groups` is `unique()` and `group_commuting` of Qiskit; `prep`
makes the experiment of a circuit and a basis: the (transpiled) circuit followed by the (laid out) measurement circuit,
335-373.  The keys are distinct, so setting is appending.  An identity ends the loop (229-232). -/
def prepLoop (groups : List Pauli → List (List Pauli)) (prep : PCirc → Pauli → PCirc) (circuits : List PCirc) (obs : List Observ) :
    List (Nat × List Nat) → Prepared → Option Prepared
  | [], a => some a
  | (c, os) :: r, a => do
    let ts ← os.mapM fun (o : Nat) => (obs[o]?).map fun t => (o, t)
    let gs := groups (ts.flatMap fun t => t.2.map Prod.fst)
    let maps := a.maps ++ [(c, obsMap gs ts fun _ => [])]
    let bases := gs.map basisOf
    if bases.length = 1 ∧ bases.all Pauli.isId then some ⟨a.exps, maps⟩
    else
      let p ← circuits[c]?
      prepLoop groups prep circuits obs r ⟨a.exps ++ [(c, bases.map fun b => (prep p b, b))], maps⟩

/-- The part of `_compute` that is cached (qdd_estimator.py 203-237). -/
def prepare (groups : List Pauli → List (List Pauli)) (prep : PCirc → Pauli → PCirc) (circuits : List PCirc) (obs : List Observ)
    (ci oi : List Nat) : Option Prepared :=
  prepLoop groups prep circuits obs ((ci.zip oi).foldl pushObs []) ⟨[], []⟩

/-- Basis ↦ parameter values, in order of insertion.  (The parameters stored with them are those of the circuit.) -/
abbrev BMap := List (Nat × List (List ℝ))

open Classical in
/-- One step of `_pre_process_params` (qdd_estimator.py 304-313). -/
def addVal (hasParams : Bool) (v : List ℝ) (bm : BMap) (b : Nat) : BMap :=
  if b ∈ bm.map Prod.fst then
    bm.map fun x => if x.1 = b then (x.1, if hasParams then (if v ∈ x.2 then x.2 else x.2 ++ [v]) else [v]) else x
  else bm ++ [(b, [v])]

/-- Changing the entry of a circuit (a `defaultdict(dict)`). -/
def updMap (em : List (Nat × BMap)) (c : Nat) (f : BMap → BMap) : List (Nat × BMap) :=
  if c ∈ em.map Prod.fst then em.map fun x => if x.1 = c then (x.1, f x.2) else x else em ++ [(c, f [])]

/-- `_pre_process_params` (qdd_estimator.py 294-315); `none` is an exception. -/
def preLoop (circuits : List PCirc) (maps : List (Nat × (Nat → List Nat))) :
    List (Nat × Nat × List ℝ) → List (Nat × BMap) → Option (List (Nat × BMap))
  | [], em => some em
  | (c, o, v) :: r, em => do
    let p ← circuits[c]?
    if v.length ≠ p.params.length then none
    else
      let m ← maps.lookup c
      preLoop circuits maps r ((m o).foldl (fun em b => updMap em c fun bm => addVal (!p.params.isEmpty) v bm b) em)

/-- `_flatten` (qdd_estimator.py 317-334) of one circuit: the experiments sorted by basis, and the bindings in order of
insertion. -/
def flat1 (es : List (PCirc × Pauli)) (params : List Nat) (bm : BMap) : Option (List (PCirc × Pauli) × List (List (Nat × ℝ))) := do
  let l ← ((bm.flatMap fun x => x.2.map fun _ => x.1).mergeSort fun a b => decide (a ≤ b)).mapM fun (i : Nat) => es[i]?
  pure (l, bm.flatMap fun x => x.2.map fun v => params.zip v)

/-- `_flatten` (qdd_estimator.py 317-334). -/
def flatten (circuits : List PCirc) (em : List (Nat × BMap)) : List (Nat × List (PCirc × Pauli)) →
    Option (List (PCirc × Pauli) × List (List (Nat × ℝ)))
  | [] => some ([], [])
  | (c, es) :: r => do
    let p ← circuits[c]?
    let a ← flat1 es p.params ((em.lookup c).getD [])
    let b ← flatten circuits em r
    pure (a.1 ++ b.1, a.2 ++ b.2)

open Classical in
/-- The inner loop of `_calculate_result_index` (qdd_estimator.py 382-387): `.inl` is `return`, `.inr` the index counted so
far.  `index` raises (`none`) when the value is absent. -/
def idxIn (mine : Bool) (b : Nat) (v : List ℝ) : BMap → Nat → Nat → Option (Nat ⊕ Nat)
  | [], _, acc => some (.inr acc)
  | x :: r, pos, acc =>
    if mine ∧ b = pos then (if v ∈ x.2 then some (.inl (acc + x.2.idxOf v)) else none)
    else idxIn mine b v r (pos + 1) (acc + x.2.length)

/-- `_calculate_result_index` (qdd_estimator.py 375-387) after the basis has been looked up; the inner `none` is Python's
`None` at the end of the loops. -/
def resIdx (c b : Nat) (v : List ℝ) : List (Nat × BMap) → Nat → Option (Option Nat)
  | [], _ => some none
  | x :: r, acc => match idxIn (decide (c = x.1)) b v x.2 0 acc with
    | none => none
    | some (.inl i) => some (some i)
    | some (.inr acc) => resIdx c b v r acc

/-- `_PostProcessing` (qdd_estimator.py 472-487): result index, Paulis, coefficients. -/
abbrev PP := List (Option Nat × List Pauli × List ℝ)

/-- One term of `_create_post_processing` (qdd_estimator.py 411-427). -/
def ppStep (acc : PP) (ri : Option Nat) (t : Pauli × ℝ) : PP :=
  match acc.findIdx? fun x => decide (x.1 = ri) with
  | some i => acc.modify i fun x => (x.1, x.2.1 ++ [t.1], x.2.2 ++ [t.2])
  | none => acc ++ [(ri, [t.1], [t.2])]

/-- The loop over the terms (qdd_estimator.py 408-427); the list of bases is `obs_maps[circ_ind][obs_ind]`. -/
def ppLoop (c : Nat) (v : List ℝ) (bs : List Nat) (em : List (Nat × BMap)) : Observ → Nat → PP → Option PP
  | [], _, acc => some acc
  | t :: ts, k, acc =>
    if t.1.isId then ppLoop c v bs em ts (k + 1) (acc ++ [(none, [t.1], [t.2])])
    else do
      let b ← bs[k]?
      let ri ← resIdx c b v em 0
      ppLoop c v bs em ts (k + 1) (ppStep acc ri t)

/-- `_create_post_processing` (qdd_estimator.py 389-439). -/
def ppAll (obs : List Observ) (maps : List (Nat × (Nat → List Nat))) (em : List (Nat × BMap)) (ts : List (Nat × Nat × List ℝ)) :
    Option (List PP) :=
  ts.mapM fun t => do
    let o ← obs[t.2.1]?
    let m ← maps.lookup t.1
    ppLoop t.1 t.2.2 (m t.2.1) em o 0 []

/-- `_pauli_expval_with_variance` (qdd_estimator.py 581-601) of one Pauli: the counts are those of the memory
(qdd_backend.py 995). -/
def expvalOf (b p : Pauli) (mem : List (List Bool)) : ℝ :=
  ((mem.dedup.map fun k => (mem.count k : ℝ) * sgn p b k).sum) / ((mem.dedup.map fun k => (mem.count k : ℝ)).sum)

/-- One entry of `_PostProcessing.run` (qdd_estimator.py 536-561): `np.dot(expvals, coeffs)`. -/
def ppVal (bases : List Pauli) (rs : List Result) (x : Option Nat × List Pauli × List ℝ) : Option ℝ :=
  match x.1 with
  | none => if x.2.2.length = 1 then some x.2.2.sum else none
  | some j => do
    let r ← rs[j]?
    let b ← bases[j]?
    let mem ← r.memory
    pure ((List.zipWith (fun p c => expvalOf b p mem * c) x.2.1 x.2.2).sum)

/-- `_PostProcessing.run` (qdd_estimator.py 489-570). -/
def ppRun (bases : List Pauli) (rs : List Result) (pp : PP) : Option ℝ := (pp.mapM (ppVal bases rs)).map List.sum

/-- `_pauli_expval_with_variance_from_dist` (qdd_estimator.py 604-618) of one Pauli: bit k of the index (the key of
`probabilities`, qdd_backend.py 1019-1021) is taken for the outcome of the k-th measured qubit. -/
def expvalDist (b p : Pauli) (pr : List ℝ) : ℝ :=
  (pr.mapIdx fun i x => x * (-1) ^ hits p b.support ((List.range b.support.length).map (i.testBit ·))).sum

/-- One entry of `_PostProcessing.run` with `approximation=True` (qdd_estimator.py 501-522). -/
def ppValA (bases : List Pauli) (rs : List Result) (x : Option Nat × List Pauli × List ℝ) : Option ℝ :=
  match x.1 with
  | none => if x.2.2.length = 1 then some x.2.2.sum else none
  | some j => do
    let r ← rs[j]?
    let b ← bases[j]?
    let pr ← r.probs
    pure ((List.zipWith (fun p c => expvalDist b p pr * c) x.2.1 x.2.2).sum)

/-- `_PostProcessing.run` with `approximation=True` and without shots (qdd_estimator.py 501-522, 534-538). -/
def ppRunA (bases : List Pauli) (rs : List Result) (pp : PP) : Option ℝ := (pp.mapM (ppValA bases rs)).map List.sum

/-- `_PostProcessing.run` (qdd_estimator.py 489-570); `ap` is `_approximation`. -/
def ppMode (ap : Bool) (bases : List Pauli) (rs : List Result) (pp : PP) : Option ℝ :=
  match ap with
  | false => ppRun bases rs pp
  | true => ppRunA bases rs pp

/-- The number of shots (qdd_estimator.py 267-273). -/
def estShots : Shots → Shots
  | .absent => .int 1024
  | .none => .int 1024
  | s => s

/-- The number of shots with `approximation=True` or not (qdd_estimator.py 265-273). -/
def modeShots (ap : Bool) (sh : Shots) : Shots :=
  match ap with
  | false => estShots sh
  | true => .none

/-- The last part of `_compute` (qdd_estimator.py 288-292): the values, with the results they come from. -/
def estFinish (ap : Bool) (bases : List Pauli) (pps : List PP) (j : Job) : Client (List Result × List ℝ) :=
  match pps.mapM (ppMode ap bases j.results) with
  | some vs => .ret (j.results, vs)
  | none => .raise

/-- `_compute` (qdd_estimator.py 240-292), after the cached part. -/
def estCall (circuits : List PCirc) (obs : List Observ) (pr : Prepared) (ts : List (Nat × Nat × List ℝ)) (shots : Shots)
    (others : List String) (ap : Bool := false) : Client (List Result × List ℝ) :=
  match preLoop circuits pr.maps ts [] with
  | none => .raise
  | some em =>
    match flatten circuits em pr.exps, ppAll obs pr.maps em ts with
    | some (es, binds), some pps =>
      if es = [] then estFinish ap [] pps (.done [])
      else (runJob (es.map Prod.fst) ⟨modeShots ap shots, if binds.any (· ≠ []) then some binds else none, others, false, none⟩).bind'
        (estFinish ap (es.map Prod.snd) pps)
    | _, _ => .raise

/-- `run` with lists of circuits, observables and parameter values (qdd_estimator.py 141-202); `ap` is `approximation=True`
in the constructor, which `run` does not change. -/
def estRun (key : PCirc → Key) (groups : List Pauli → List (List Pauli)) (prep : PCirc → Pauli → PCirc) (s : Est Key)
    (ps : List PCirc) (os : List Observ) (vals : List (List ℝ)) (shots : Shots) (others : List String)
    (ap : Bool := false) : Est Key × Client (List Result × List ℝ) :=
  let r := register key ps s.base
  let q := regObs os s.obs
  let ts := r.2.zip (q.2.zip vals)
  match s.cache.lookup (r.2, q.2) with
  | some pr => (⟨r.1, q.1, s.cache⟩, estCall r.1.circuits q.1 pr ts shots others ap)
  | none => match prepare groups prep r.1.circuits q.1 r.2 q.2 with
    | some pr => (⟨r.1, q.1, ((r.2, q.2), pr) :: s.cache⟩, estCall r.1.circuits q.1 pr ts shots others ap)
    | none => (⟨r.1, q.1, s.cache⟩, .raise)

/-- The estimators that can be reached: by any sequence of calls with circuits satisfying `P`. -/
inductive EReach (key : PCirc → Key) (groups : List Pauli → List (List Pauli)) (prep : PCirc → Pauli → PCirc) (P : PCirc → Prop) :
    Est Key → Prop
  | new : EReach key groups prep P .new
  | call {s ps os vals sh ot} : EReach key groups prep P s → (∀ p ∈ ps, P p) →
      EReach key groups prep P (estRun key groups prep s ps os vals sh ot).1

end

end QDD.Py
