import Verif.Safe.Measure
import Verif.Safe.MatMul
import Verif.Api.Correct
/-!
# The engine driven by API calls, over arbitrary floating-point arithmetic

The machine of `Api/Machine.lean` for weights `W` and doubles `R` with no laws.  The caller keeps track of the number of
qubits of each handle (`Shape`); the preconditions are those of the documented API: targets within the register, operands
with matching qubit counts, at most `NQUBITS` qubits, read-outs of at most 30 qubits of states that are not a terminal edge.
-/

set_option linter.unusedSectionVars false
set_option linter.unusedVariables false
set_option linter.unusedSimpArgs false

namespace QDD.Safe
open RoundW Prog

variable {R W : Type} [WOps W] [ROps R W]

/-- The API calls; vectors and matrices are named by their position in the caller's lists of handles. -/
inductive Call (R W : Type)
  | zero (n : Nat)
  | one (n : Nat)
  | ident
  | gate (n : Nat) (g : Nat → Nat → W) (t : Nat) (cs : List Ctl)
  | gate2 (n : Nat) (g : Nat → Nat → W) (t0 t1 : Nat) (cs : List Ctl)
  | cx (n t c : Nat)
  | swap (n t0 t1 : Nat)
  | cswap (n t0 t1 c : Nat)
  | mv (m v : Nat)
  | vadd (a b : Nat)
  | vkron (a b : Nat)
  | scale (v : Nat) (c : W)
  | mscale (m : Nat) (c : W)
  | mmul (a b : Nat)
  | madd (a b : Nat)
  | mkron (a b : Nat)
  | gc (force : Bool) (keep : List Nat)
  | gcMat (force : Bool) (keep : List Nat)
  | getVector (v : Nat)
  | getMatrix (m n : Nat)
  | probabilities (v : Nat)
  | measureAll (v : Nat) (collapse : Bool) (draw : Nat → R)
  | measureOne (v q : Nat) (eps : R)
  | measureOneCollapsing (v q : Nat) (eps draw : R)

/-- What a call returns, apart from handles. -/
inductive Out (R W : Type)
  | unit
  | vec (a : Arr W)
  | mat (a : Arr2 W)
  | probs (l : List R)
  | str (l : List Bool)
  | num (x : R)
  | char (b : Bool)
  | throw

/-- Everything outside the tables and caches: the `probs` map (dd.cpp 57), the gc thresholds (dd.cpp 2361, 2409) and the
edges the caller holds. -/
structure Data (R W : Type) where
  memo : Memo R
  thr : Nat
  thrM : Nat
  vs : List (Edge W)
  ms : List (Edge W)

def Data.addV (d : Data R W) (e : Edge W) : Data R W := { d with vs := d.vs ++ [e] }
def Data.addM (d : Data R W) (e : Edge W) : Data R W := { d with ms := d.ms ++ [e] }

/-- A handle the caller does not have. -/
def handle (l : List (Edge W)) (i : Nat) : P W (Edge W) :=
  match l[i]? with
  | some e => pure e
  | none => fail .oob

/-- Read-out as an observation. -/
def obs {α : Type} (f : α → Out R W) : Except Err α → Except Err (Out R W)
  | .error er => .error er
  | .ok a => .ok (f a)

/-- One API call (the code of `Api.prog`, for any arithmetic). -/
def prog (env : Env W) (mt : Bool) (fk : Nat → Bool) (d : Data R W) : Call R W → P W (Data R W × Out R W)
  | .zero n => do return (d.addV (← makeZeroState env n), .unit)
  | .one n => do return (d.addV (← makeOneState env n), .unit)
  | .ident => return (d.addM oneE, .unit)
  | .gate n g t cs => do return (d.addM (← makeGate env n g t cs), .unit)
  | .gate2 n g t0 t1 cs => do return (d.addM (← makeTwoQubitGate env n g t0 t1 cs), .unit)
  | .cx n t c => do return (d.addM (← gateCX env n t c), .unit)
  | .swap n t0 t1 => do return (d.addM (← makeSwap env n t0 t1), .unit)
  | .cswap n t0 t1 c => do return (d.addM (← gateCSWAP env n t0 t1 c), .unit)
  | .mv m v => do
    let m ← handle d.ms m
    let v ← handle d.vs v
    return (d.addV (← mvMul env mt m v), .unit)
  | .vadd a b => do
    let a ← handle d.vs a
    let b ← handle d.vs b
    return (d.addV (← vvAdd env fk a b), .unit)
  | .vkron a b => do
    let a ← handle d.vs a
    let b ← handle d.vs b
    return (d.addV (← vvKron env a b), .unit)
  | .scale v c => do
    let v ← handle d.vs v
    return (d.addV ⟨WOps.mul v.w c, v.n⟩, .unit)
  | .mscale m c => do
    let m ← handle d.ms m
    return (d.addM ⟨WOps.mul m.w c, m.n⟩, .unit)
  | .mmul a b => do
    let a ← handle d.ms a
    let b ← handle d.ms b
    return (d.addM (← mmMul env a b), .unit)
  | .madd a b => do
    let a ← handle d.ms a
    let b ← handle d.ms b
    return (d.addM (← mmAdd env a b), .unit)
  | .mkron a b => do
    let a ← handle d.ms a
    let b ← handle d.ms b
    return (d.addM (← mmKron env a b), .unit)
  | .gc force keep => do
    let es ← keep.mapM (handle d.vs)
    let (es, thr, ran) ← atom fun tid s => match gc env tid force d.thr es s with
      | .error er => .error er
      | .ok (es, thr, ran, s) => .ok ((es, thr, ran), s)
    return ({ d with vs := es, thr := thr, memo := if ran then fun _ => none else d.memo }, .unit)
  | .gcMat force keep => do
    let es ← keep.mapM (handle d.ms)
    let (es, thr) ← atom fun tid s => match gcMat env tid force d.thrM es s with
      | .error er => .error er
      | .ok (es, thr, _, s) => .ok ((es, thr), s)
    return ({ d with ms := es, thrM := thr }, .unit)
  | .getVector v => do
    let v ← handle d.vs v
    return (d, ← peek fun s => obs .vec (getVector s v))
  | .getMatrix m n => do
    let m ← handle d.ms m
    return (d, ← peek fun s => obs .mat (getMatrix s m n))
  | .probabilities v => do
    let v ← handle d.vs v
    let (l, m) ← peek fun s => Fl.probabilities s v d.memo
    return ({ d with memo := m }, .probs l)
  | .measureAll v c draw => do
    let e ← handle d.vs v
    let (l, e, m) ← Fl.measureAll env e c d.memo draw
    return ({ d with memo := m, vs := d.vs.set v e }, .str l)
  | .measureOne v q eps => do
    let v ← handle d.vs v
    let (x, m) ← peek fun s => Fl.measureOne s v q eps d.memo
    return ({ d with memo := m }, match x with | none => .throw | some x => .num x)
  | .measureOneCollapsing v q eps draw => do
    let e ← handle d.vs v
    let (x, m) ← Fl.measureOneCollapsing env mt e q eps draw d.memo
    match x with
    | none => return ({ d with memo := m }, .throw)
    | some (b, e) => return ({ d with memo := m, vs := d.vs.set v e }, .char b)

/-- The whole machine. -/
structure Sys (R W : Type) where
  d : Data R W
  st : St W

/-- Program start. -/
def Sys.init (thr thrM : Nat) : Sys R W := ⟨⟨fun _ => none, thr, thrM, [], []⟩, St.init⟩

/-- Calls whose code never forks and that are modelled as running on one thread. -/
def Call.seq : Call R W → Bool
  | .swap .. | .mmul .. | .madd .. => true
  | _ => false

/-- A call returns `o` (for calls that may fork: under some schedule of its fibers on some threads). -/
inductive Exec (env : Env W) (mt : Bool) (σ : Sys R W) (c : Call R W) : Out R W → Sys R W → Prop
  | conc {fk d' o s'} (h : c.seq = false) (hs : Steps (prog env mt fk σ.d c) σ.st (Prog.ret (d', o)) s') :
      Exec env mt σ c o ⟨d', s'⟩
  | seq {fk d' o s'} (h : c.seq = true) (hs : (prog env mt fk σ.d c).run σ.st = .ok ((d', o), s')) :
      Exec env mt σ c o ⟨d', s'⟩

/-- A call can get into an error state: an access to memory that holds no node, a table or array index out of range, a
failed assertion, an integer overflow. -/
inductive CanFault (env : Env W) (mt : Bool) (σ : Sys R W) (c : Call R W) : Prop
  | conc {fk p s} (h : c.seq = false) (hs : Steps (prog env mt fk σ.d c) σ.st p s) (hf : Faults p s)
  | seq {fk er} (h : c.seq = true) (hs : (prog env mt fk σ.d c).run σ.st = .error er)

/-- The caller's bookkeeping: the number of qubits of each vector and of each matrix handle. -/
structure Shape where
  vs : List Nat
  ms : List Nat

/-- The bookkeeping after a call. -/
def Shape.after (sh : Shape) : Call R W → Shape
  | .zero n | .one n => { sh with vs := sh.vs ++ [n] }
  | .ident => { sh with ms := sh.ms ++ [0] }
  | .gate n _ _ _ | .gate2 n _ _ _ _ | .cx n _ _ | .swap n _ _ | .cswap n _ _ _ => { sh with ms := sh.ms ++ [n] }
  | .mv _ v => { sh with vs := sh.vs ++ [sh.vs.getD v 0] }
  | .vadd a _ => { sh with vs := sh.vs ++ [sh.vs.getD a 0] }
  | .vkron a b => { sh with vs := sh.vs ++ [sh.vs.getD a 0 + sh.vs.getD b 0] }
  | .scale v _ => { sh with vs := sh.vs ++ [sh.vs.getD v 0] }
  | .mscale m _ => { sh with ms := sh.ms ++ [sh.ms.getD m 0] }
  | .mmul a b | .madd a b => { sh with ms := sh.ms ++ [max (sh.ms.getD a 0) (sh.ms.getD b 0)] }
  | .mkron a b => { sh with ms := sh.ms ++ [sh.ms.getD a 0 + sh.ms.getD b 0] }
  | .gc _ keep => { sh with vs := keep.map fun i => sh.vs.getD i 0 }
  | .gcMat _ keep => { sh with ms := keep.map fun i => sh.ms.getD i 0 }
  | .getVector _ | .getMatrix _ _ | .probabilities _ | .measureAll _ _ _ | .measureOne _ _ _
  | .measureOneCollapsing _ _ _ _ => sh

/-- `vEdge::isTerminal` is false for the handle: the state is not the zero vector the engine represents by a terminal. -/
def Data.live (d : Data R W) (v : Nat) : Prop := ∃ e, d.vs[v]? = some e ∧ e.n ≠ none

/-- What the caller must respect. -/
def pre (sh : Shape) (d : Data R W) : Call R W → Prop
  | .zero n | .one n => 0 < n ∧ n ≤ NQUBITS
  | .ident => True
  | .gate n _ t _ => t < n ∧ n ≤ NQUBITS
  | .gate2 n _ t0 t1 _ => t0 < n ∧ t1 < n ∧ t0 ≠ t1 ∧ n ≤ NQUBITS
  | .cx n t c => t < n ∧ c < n ∧ n ≤ NQUBITS
  | .swap n t0 t1 => t0 < n ∧ t1 < n ∧ n ≤ NQUBITS
  | .cswap n t0 t1 c => t0 < n ∧ t1 < n ∧ c < n ∧ t0 ≠ t1 ∧ n ≤ NQUBITS
  | .mv m v => ∃ k l, sh.ms[m]? = some k ∧ sh.vs[v]? = some l ∧ k ≤ l
  | .vadd a b => ∃ k, sh.vs[a]? = some k ∧ sh.vs[b]? = some k
  | .vkron a b => ∃ k l, sh.vs[a]? = some k ∧ sh.vs[b]? = some l ∧ k + l ≤ NQUBITS ∧ d.live a ∧ d.live b
  | .scale v _ => v < sh.vs.length
  | .mscale m _ => m < sh.ms.length
  | .mmul a b | .madd a b => a < sh.ms.length ∧ b < sh.ms.length
  | .mkron a b => ∃ k l, sh.ms[a]? = some k ∧ sh.ms[b]? = some l ∧ k + l ≤ NQUBITS
  | .gc _ keep => ∀ i ∈ keep, i < sh.vs.length
  | .gcMat _ keep => ∀ i ∈ keep, i < sh.ms.length
  | .getVector v | .probabilities v => ∃ k, sh.vs[v]? = some k ∧ k ≤ 30 ∧ d.live v
  | .getMatrix m n => ∃ k, sh.ms[m]? = some k ∧ k ≤ n ∧ n ≤ 30
  | .measureAll v _ draw => ∃ k, sh.vs[v]? = some k ∧ d.live v ∧
      ∀ u < k, ROps.lt W (draw u) (ROps.zero W) = false ∧ ROps.lt W (draw u) (ROps.one W) = true
  | .measureOne v q _ | .measureOneCollapsing v q _ _ => ∃ k, sh.vs[v]? = some k ∧ d.live v ∧ q < k

/-- States reached from program start by calls that respect `pre`, under any schedules. -/
inductive Hist (env : Env W) (mt : Bool) (thr thrM : Nat) : List (Call R W) → Shape → Sys R W → Prop
  | init : Hist env mt thr thrM [] ⟨[], []⟩ (Sys.init thr thrM)
  | call {cs sh σ c o σ'} : Hist env mt thr thrM cs sh σ → pre sh σ.d c → Exec env mt σ c o σ' →
      Hist env mt thr thrM (cs ++ [c]) (sh.after c) σ'

/-! ## The invariant -/

section proofs
variable [RoundW W] [RoundR R W] {env : Env W}

/-- The caller's handles fit the bookkeeping. -/
structure GoodD (env : Env W) (s : St W) (d : Data R W) (sh : Shape) : Prop where
  memo : MemoOk env s d.memo
  vs : List.Forall₂ (fun k e => VLv env s k e) sh.vs d.vs
  ms : List.Forall₂ (fun k (e : Edge W) => MLv env s k e.n) sh.ms d.ms

theorem f2_imp {α β : Type} {P Q : α → β → Prop} {l : List α} {l' : List β} (h : List.Forall₂ P l l')
    (hi : ∀ a b, P a b → Q a b) : List.Forall₂ Q l l' := h.imp hi

theorem f2_snoc {α β : Type} {P : α → β → Prop} {l : List α} {l' : List β} (h : List.Forall₂ P l l') {a b}
    (hab : P a b) : List.Forall₂ P (l ++ [a]) (l' ++ [b]) := by
  induction h with
  | nil => exact .cons hab .nil
  | cons h1 _ ih => exact .cons h1 ih

theorem f2_get {α β : Type} {P : α → β → Prop} {l : List α} {l' : List β} (h : List.Forall₂ P l l') :
    ∀ {i : Nat} {a : α}, l[i]? = some a → ∃ b, l'[i]? = some b ∧ P a b := by
  induction h with
  | nil => intro i a h; simp at h
  | cons h1 _ ih =>
    intro i a hi
    cases i with
    | zero => simp at hi; subst hi; exact ⟨_, rfl, h1⟩
    | succ i => exact ih (by simpa using hi)

theorem f2_set {α β : Type} {P : α → β → Prop} {l : List α} {l' : List β} (h : List.Forall₂ P l l') :
    ∀ {i : Nat} {a : α} {b : β}, l[i]? = some a → P a b → List.Forall₂ P l (l'.set i b) := by
  induction h with
  | nil => intro i a b h; simp at h
  | cons h1 h2 ih =>
    intro i a b hi hab
    cases i with
    | zero => simp at hi; subst hi; exact .cons hab h2
    | succ i => exact .cons h1 (ih (by simpa using hi) hab)

theorem GoodD.ext {s s' : St W} {d : Data R W} {sh} (h : GoodD env s d sh) (he : Grow env s s') : GoodD env s' d sh :=
  ⟨h.memo.ext he, f2_imp h.vs fun _ _ h => h.ext he, f2_imp h.ms fun _ _ h => h.ext he⟩

theorem GoodD.addV {s : St W} {d : Data R W} {sh} (h : GoodD env s d sh) {e k} (he : VLv env s k e) :
    GoodD env s (d.addV e) { sh with vs := sh.vs ++ [k] } := ⟨h.memo, f2_snoc h.vs he, h.ms⟩

theorem GoodD.addM {s : St W} {d : Data R W} {sh} (h : GoodD env s d sh) {e : Edge W} {k} (he : MLv env s k e.n) :
    GoodD env s (d.addM e) { sh with ms := sh.ms ++ [k] } := ⟨h.memo, h.vs, f2_snoc h.ms he⟩

theorem handle_bind {l : List (Edge W)} {i : Nat} {e : Edge W} (h : l[i]? = some e) {α : Type} (k : Edge W → P W α) :
    (handle l i >>= k) = k e := by
  unfold handle; rw [h]; rfl

theorem newV {s : St W} {d : Data R W} {sh : Shape} {p : P W (Edge W)} {k : Nat} (hg : GoodD env s d sh)
    (hp : Sat (world env) p s (fun s' e => VLv env s' k e)) :
    Sat (world env) (do return (d.addV (← p), (.unit : Out R W))) s
      (fun s' r => GoodD env s' r.1 { sh with vs := sh.vs ++ [k] }) := by
  refine Sat.bind hp fun s1 e hi1 he1 h1 => ?_
  exact Sat.pure fun s2 hi2 he2 => ((hg.ext he1).addV h1).ext he2

theorem newM {s : St W} {d : Data R W} {sh : Shape} {p : P W (Edge W)} {k : Nat} (hg : GoodD env s d sh)
    (hp : Sat (world env) p s (fun s' e => MLv env s' k e.n)) :
    Sat (world env) (do return (d.addM (← p), (.unit : Out R W))) s
      (fun s' r => GoodD env s' r.1 { sh with ms := sh.ms ++ [k] }) := by
  refine Sat.bind hp fun s1 e hi1 he1 h1 => ?_
  exact Sat.pure fun s2 hi2 he2 => ((hg.ext he1).addM h1).ext he2

theorem getD_of {l : List Nat} {i k : Nat} (h : l[i]? = some k) : l.getD i 0 = k := by
  rw [List.getD_eq_getElem?_getD, h]; rfl

theorem of_lt {l : List Nat} {i : Nat} (h : i < l.length) : l[i]? = some (l.getD i 0) := by
  rw [List.getD_eq_getElem?_getD, List.getElem?_eq_getElem h]; rfl

/-- Calls other than the collectors and the sequential ones. -/
def Call.plain : Call R W → Bool
  | .gc .. | .gcMat .. | .swap .. | .mmul .. | .madd .. => false
  | _ => true

theorem plain_sat (mt : Bool) (fk : Nat → Bool) {s : St W} {d : Data R W} {sh : Shape} (hi : Inv env s)
    (hg : GoodD env s d sh) {c : Call R W} (hc : c.plain = true) (hp : pre sh d c) :
    Sat (world env) (prog env mt fk d c) s (fun s' r => GoodD env s' r.1 (sh.after c)) := by
  cases c with
  | zero n => exact newV hg (makeZeroState_sat hp.1 hp.2)
  | one n => exact newV hg (makeOneState_sat hp.1 hp.2)
  | ident => exact Sat.pure fun s' _ he => (hg.ext he).addM (.inl rfl)
  | gate n g t cs => exact newM hg (makeGate_sat g cs hp.1 hp.2)
  | gate2 n g t0 t1 cs => exact newM hg (makeTwoQubitGate_sat g cs hp.1 hp.2.1 hp.2.2.1 hp.2.2.2)
  | cx n t c => exact newM hg (makeGate_sat _ _ hp.1 hp.2.2)
  | cswap n t0 t1 c => exact newM hg (makeTwoQubitGate_sat _ _ hp.1 hp.2.1 hp.2.2.2.1 hp.2.2.2.2)
  | mv m v =>
    obtain ⟨k, l, h1, h2, h3⟩ := hp
    obtain ⟨em, g1, g2⟩ := f2_get hg.ms h1
    obtain ⟨ev, g3, g4⟩ := f2_get hg.vs h2
    simp only [prog, handle_bind g1, handle_bind g3, Shape.after, getD_of h2]
    exact newV hg (mvMul_sat mt (g2.mono h3) g4)
  | vadd a b =>
    obtain ⟨k, h1, h2⟩ := hp
    obtain ⟨ea, g1, g2⟩ := f2_get hg.vs h1
    obtain ⟨eb, g3, g4⟩ := f2_get hg.vs h2
    simp only [prog, handle_bind g1, handle_bind g3, Shape.after, getD_of h1]
    exact newV hg (vvAdd_sat fk g2 g4)
  | vkron a b =>
    obtain ⟨k, l, h1, h2, h3, ⟨xa, h4, h5⟩, ⟨xb, h6, h7⟩⟩ := hp
    obtain ⟨ea, g1, g2⟩ := f2_get hg.vs h1
    obtain ⟨eb, g3, g4⟩ := f2_get hg.vs h2
    rw [g1] at h4; cases h4
    rw [g3] at h6; cases h6
    simp only [prog, handle_bind g1, handle_bind g3, Shape.after, getD_of h1, getD_of h2]
    exact newV hg (vvKron_sat hi h3 g2 g4 h5 h7)
  | scale v c =>
    have h1 := of_lt hp
    obtain ⟨e, g1, g2⟩ := f2_get hg.vs h1
    simp only [prog, handle_bind g1, Shape.after]
    exact Sat.pure fun s' _ he => (hg.ext he).addV ((g2.mulR c).ext he)
  | mscale m c =>
    have h1 := of_lt hp
    obtain ⟨e, g1, g2⟩ := f2_get hg.ms h1
    simp only [prog, handle_bind g1, Shape.after]
    exact Sat.pure fun s' _ he => (hg.ext he).addM (g2.ext he)
  | mkron a b =>
    obtain ⟨k, l, h1, h2, h3⟩ := hp
    obtain ⟨ea, g1, g2⟩ := f2_get hg.ms h1
    obtain ⟨eb, g3, g4⟩ := f2_get hg.ms h2
    simp only [prog, handle_bind g1, handle_bind g3, Shape.after, getD_of h1, getD_of h2]
    exact newM hg (mmKron_sat hi h3 g2 g4)
  | getVector v =>
    obtain ⟨k, h1, h2, xa, h3, h4⟩ := hp
    obtain ⟨e, g1, g2⟩ := f2_get hg.vs h1
    rw [g1] at h3; cases h3
    simp only [prog, handle_bind g1, Shape.after]
    refine Sat.bind (Q := fun _ _ => True) (peekS_sat fun s1 hi1 he1 => ?_) fun s1 x hi1 he1 _ =>
      Sat.pure fun s' _ he => (hg.ext he1).ext he
    obtain ⟨a, h5, _⟩ := getVector_ok hi1 h2 (g2.ext he1) h4
    exact ⟨_, by rw [h5]; rfl, fun _ _ _ => trivial⟩
  | getMatrix m n =>
    obtain ⟨k, h1, h2, h3⟩ := hp
    obtain ⟨e, g1, g2⟩ := f2_get hg.ms h1
    simp only [prog, handle_bind g1, Shape.after]
    refine Sat.bind (Q := fun _ _ => True) (peekS_sat fun s1 hi1 he1 => ?_) fun s1 x hi1 he1 _ =>
      Sat.pure fun s' _ he => (hg.ext he1).ext he
    obtain ⟨a, h5, _⟩ := getMatrix_ok hi1 h3 ((g2.ext he1).mono h2)
    exact ⟨_, by rw [h5]; rfl, fun _ _ _ => trivial⟩
  | probabilities v =>
    obtain ⟨k, h1, h2, xa, h3, h4⟩ := hp
    obtain ⟨e, g1, g2⟩ := f2_get hg.vs h1
    rw [g1] at h3; cases h3
    simp only [prog, handle_bind g1, Shape.after]
    refine Sat.bind (Q := fun s' r => MemoOk env s' r.2) (peekS_sat fun s1 hi1 he1 => ?_) ?_
    · obtain ⟨l, m', h5, h6⟩ := probabilities_ok hi1 (hg.memo.ext he1) (g2.ext he1) h4 h2
      exact ⟨(l, m'), h5, fun _ _ he => h6.ext he⟩
    · rintro s1 ⟨l, m'⟩ hi1 he1 h
      exact Sat.pure fun s' _ he => ⟨h.ext he, ((hg.ext he1).ext he).vs, ((hg.ext he1).ext he).ms⟩
  | measureAll v c draw =>
    obtain ⟨k, h1, ⟨xa, h3, h4⟩, h5⟩ := hp
    obtain ⟨e, g1, g2⟩ := f2_get hg.vs h1
    rw [g1] at h3; cases h3
    simp only [prog, handle_bind g1, Shape.after]
    refine Sat.bind (measureAll_sat hi hg.memo draw c g2 h4 h5) ?_
    rintro s1 ⟨l, e', m'⟩ hi1 he1 ⟨h6, h7⟩
    exact Sat.pure fun s' _ he => ⟨h7.ext he, f2_set ((hg.ext he1).ext he).vs h1 (h6.ext he), ((hg.ext he1).ext he).ms⟩
  | measureOne v q eps =>
    obtain ⟨k, h1, ⟨xa, h3, h4⟩, h5⟩ := hp
    obtain ⟨e, g1, g2⟩ := f2_get hg.vs h1
    rw [g1] at h3; cases h3
    simp only [prog, handle_bind g1, Shape.after]
    refine Sat.bind (Q := fun s' r => MemoOk env s' r.2) (peekS_sat fun s1 hi1 he1 => ?_) ?_
    · obtain ⟨l, m', h6, h7⟩ := measureOne_ok hi1 (hg.memo.ext he1) eps (g2.ext he1) h4 h5
      exact ⟨(l, m'), h6, fun _ _ he => h7.ext he⟩
    · rintro s1 ⟨l, m'⟩ hi1 he1 h
      exact Sat.pure fun s' _ he => ⟨h.ext he, ((hg.ext he1).ext he).vs, ((hg.ext he1).ext he).ms⟩
  | measureOneCollapsing v q eps draw =>
    obtain ⟨k, h1, ⟨xa, h3, h4⟩, h5⟩ := hp
    obtain ⟨e, g1, g2⟩ := f2_get hg.vs h1
    rw [g1] at h3; cases h3
    simp only [prog, handle_bind g1, Shape.after]
    refine Sat.bind (measureOneCollapsing_sat hi hg.memo mt eps draw g2 h4 h5) ?_
    rintro s1 ⟨x, m'⟩ hi1 he1 ⟨h6, h7⟩
    rcases x with _ | ⟨b, e'⟩
    · exact Sat.pure fun s' _ he => ⟨h6.ext he, ((hg.ext he1).ext he).vs, ((hg.ext he1).ext he).ms⟩
    · exact Sat.pure fun s' _ he => ⟨h6.ext he, f2_set ((hg.ext he1).ext he).vs h1 ((h7 b e' rfl).ext he),
        ((hg.ext he1).ext he).ms⟩
  | gc | gcMat | swap | mmul | madd => cases hc

/-- The handles kept by a collection. -/
theorem keep_rel {as : List Nat} {bs : List (Edge W)} {T : Nat → Edge W → Prop} (h : List.Forall₂ T as bs) :
    ∀ {keep : List Nat}, (∀ i ∈ keep, i < as.length) →
    ∃ es, keep.mapM (handle bs) = (pure es : P W _) ∧ List.Forall₂ T (keep.map fun i => as.getD i 0) es := by
  intro keep
  induction keep with
  | nil => intro _; exact ⟨[], rfl, .nil⟩
  | cons i keep ih =>
    intro hk
    obtain ⟨es, h1, h2⟩ := ih fun j hj => hk j (List.mem_cons_of_mem _ hj)
    obtain ⟨e, g1, g2⟩ := f2_get h (of_lt (hk i List.mem_cons_self))
    refine ⟨e :: es, ?_, .cons g2 h2⟩
    rw [List.mapM_cons, h1, handle_bind g1]
    rfl

theorem f2_mem {α β : Type} {P : α → β → Prop} {l : List α} {l' : List β} (h : List.Forall₂ P l l') :
    ∀ b ∈ l', ∃ a, P a b := by
  induction h with
  | nil => intro b h; cases h
  | cons h1 _ ih =>
    intro b hb
    rcases List.mem_cons.1 hb with rfl | hb
    · exact ⟨_, h1⟩
    · exact ih b hb

theorem f2_comp {α β γ : Type} {P : α → β → Prop} {Q : β → γ → Prop} {T : α → γ → Prop}
    (ht : ∀ a b c, P a b → Q b c → T a c) {l : List α} {l' : List β} (h : List.Forall₂ P l l') :
    ∀ {l'' : List γ}, List.Forall₂ Q l' l'' → List.Forall₂ T l l'' := by
  induction h with
  | nil => intro l'' h; cases h; exact .nil
  | cons h1 _ ih => intro l'' h; cases h with | cons h2 h3 => exact .cons (ht _ _ _ h1 h2) (ih h3)

/-- Invariant of the machine. -/
def Good (env : Env W) (σ : Sys R W) (sh : Shape) : Prop := Inv env σ.st ∧ GoodD env σ.st σ.d sh

/-- Every concurrent call, in every schedule: no error, it can always run to completion, the invariant holds after. -/
theorem conc_total (mt : Bool) (fk : Nat → Bool) {σ : Sys R W} {sh : Shape} (hg : Good env σ sh) {c : Call R W}
    (hc : c.seq = false) (hp : pre sh σ.d c) :
    Api.Total (prog env mt fk σ.d c) σ.st (fun s' r => Good env ⟨r.1, s'⟩ (sh.after c)) := by
  by_cases hpl : c.plain = true
  · have := Api.Total.of_sat (plain_sat mt fk hg.1 hg.2 hpl hp) hg.1
    exact ⟨this.1, fun a s' h => this.2 a s' h⟩
  cases c with
  | gc force keep =>
    obtain ⟨es, h1, h2⟩ := keep_rel hg.2.vs (keep := keep) hp
    have hprog : prog env mt fk σ.d (.gc force keep) = Prog.step (fun tid s =>
        match gc env tid force σ.d.thr es s with
        | .error er => .error er
        | .ok (es, thr, ran, s) => .ok ((es, thr, ran), s)) (fun b => Prog.ret
          (({ σ.d with vs := b.1, thr := b.2.1, memo := if b.2.2 then fun _ => none else σ.d.memo } : Data R W),
            (.unit : Out R W))) := by
      simp only [prog]
      rw [h1]
      rfl
    rw [hprog]
    refine Api.Total.of_step fun tid => ?_
    obtain ⟨es', thr', ran, s', a1, a2, a3, a4, a5⟩ := gc_ok hg.1 tid force σ.d.thr es
      (fun e he => f2_mem h2 e he)
    refine ⟨(es', thr', ran), s', by simp only [a1], a2, ?_, ?_, ?_⟩
    · cases ran
      · have := a4 rfl
        subst this
        exact hg.2.memo
      · exact MemoOk.empty _
    · exact f2_comp (fun k e e' hv he => he k hv) h2 a5
    · refine f2_imp hg.2.ms fun k e h => ?_
      unfold MLv at h ⊢
      rw [a3]; exact h
  | gcMat force keep =>
    obtain ⟨es, h1, h2⟩ := keep_rel hg.2.ms (keep := keep) hp
    have hprog : prog env mt fk σ.d (.gcMat force keep) = Prog.step (fun tid s =>
        match gcMat env tid force σ.d.thrM es s with
        | .error er => .error er
        | .ok (es, thr, _, s) => .ok ((es, thr), s)) (fun b => Prog.ret
          (({ σ.d with ms := b.1, thrM := b.2 } : Data R W), (.unit : Out R W))) := by
      simp only [prog]
      rw [h1]
      rfl
    rw [hprog]
    refine Api.Total.of_step fun tid => ?_
    obtain ⟨es', thr', ran, s', a1, a2, a3, a5⟩ := gcMat_ok hg.1 tid force σ.d.thrM es
      (fun e he => by obtain ⟨k, hk⟩ := f2_mem h2 e he; exact MLv.reg hk)
    refine ⟨(es', thr'), s', by simp only [a1], a2, ?_, ?_, ?_⟩
    · have := hg.2.memo
      refine ⟨this.ge, fun p hp' => ?_⟩
      dsimp only
      rw [a3]; exact this.node p hp'
    · refine f2_imp hg.2.vs fun k e h => ?_
      unfold VLv VPtr at h ⊢
      dsimp only
      rw [a3]; exact h
    · exact f2_comp (fun k e e' hv he => he k hv) h2 a5
  | swap | mmul | madd => cases hc
  | zero | one | ident | gate | gate2 | cx | cswap | mv | vadd | vkron | scale | mscale | mkron | getVector | getMatrix
    | probabilities | measureAll | measureOne | measureOneCollapsing => exact absurd rfl hpl

theorem seq_runs (mt : Bool) (fk : Nat → Bool) {σ : Sys R W} {sh : Shape} (hg : Good env σ sh) {c : Call R W}
    (hc : c.seq = true) (hp : pre sh σ.d c) :
    Runs (prog env mt fk σ.d c) σ.st (fun r s' => Good env ⟨r.1, s'⟩ (sh.after c)) := by
  have new : ∀ {p : P W (Edge W)} {k : Nat}, Runs p σ.st (fun e s' => Inv env s' ∧ Grow env σ.st s' ∧ MLv env s' k e.n) →
      Runs (do return (σ.d.addM (← p), (.unit : Out R W))) σ.st
        (fun r s' => Good env ⟨r.1, s'⟩ { sh with ms := sh.ms ++ [k] }) := by
    intro p k h
    refine Runs.bind h fun e s' _ ⟨h1, h2, h3⟩ => ?_
    exact Runs.pure ⟨h1, (hg.2.ext h2).addM h3⟩
  cases c with
  | swap n t0 t1 => exact new (makeSwap_run hg.1 hp.1 hp.2.1 hp.2.2)
  | mmul a b =>
    obtain ⟨ea, g1, g2⟩ := f2_get hg.2.ms (of_lt hp.1)
    obtain ⟨eb, g3, g4⟩ := f2_get hg.2.ms (of_lt hp.2)
    simp only [prog, handle_bind g1, handle_bind g3, Shape.after]
    refine new (Runs.mono (mmMul_run hg.1 g2.reg g4.reg) fun e s' ⟨h1, h2, h3⟩ => ⟨h1, h2, ?_⟩)
    exact h3 _ ((g2.mono (le_max_left _ _)).ext h2) ((g4.mono (le_max_right _ _)).ext h2)
  | madd a b =>
    obtain ⟨ea, g1, g2⟩ := f2_get hg.2.ms (of_lt hp.1)
    obtain ⟨eb, g3, g4⟩ := f2_get hg.2.ms (of_lt hp.2)
    simp only [prog, handle_bind g1, handle_bind g3, Shape.after]
    refine new (Runs.mono (mmAdd_run hg.1 g2.reg g4.reg) fun e s' ⟨h1, h2, h3⟩ => ⟨h1, h2, ?_⟩)
    exact h3 _ ((g2.mono (le_max_left _ _)).ext h2) ((g4.mono (le_max_right _ _)).ext h2)
  | gc | gcMat | zero | one | ident | gate | gate2 | cx | cswap | mv | vadd | vkron | scale | mscale | mkron | getVector
    | getMatrix | probabilities | measureAll | measureOne | measureOneCollapsing => cases hc

theorem Good.exec {mt : Bool} {σ σ' : Sys R W} {sh : Shape} (hg : Good env σ sh) {c : Call R W} {o}
    (hp : pre sh σ.d c) (he : Exec env mt σ c o σ') : Good env σ' (sh.after c) := by
  cases he with
  | conc h hs => exact (conc_total mt _ hg h hp).2 _ _ hs
  | seq h hs =>
    obtain ⟨a, s', h1, h2⟩ := seq_runs mt _ hg h hp
    rw [hs] at h1
    cases h1
    exact h2

theorem Hist.good {mt : Bool} {thr thrM : Nat} {cs sh} {σ : Sys R W} (h : Hist env mt thr thrM cs sh σ) :
    Good env σ sh := by
  induction h with
  | init => exact ⟨init_inv, MemoOk.empty _, .nil, .nil⟩
  | call h hp he ih => exact ih.exec hp he

end proofs
end QDD.Safe
