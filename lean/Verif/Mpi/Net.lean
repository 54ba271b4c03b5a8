import Verif.Mpi.Gate
/-!
# The distributed matrix-vector product (src/dd.cpp 679-717 `mv_multiply_MPI`, 816-856 `mv_multiply_MPI_bcast3`)

`2^g` ranks, each with its own engine state, connected by FIFO channels per (source, destination, tag).  Every rank runs
the same sequence of calls, each one `current = mv_multiply_MPI(gate, current)` or
`current = mv_multiply_MPI_bcast3(gate, current)` (qdd_backend.py 794-870).
-/

set_option linter.unusedSectionVars false
set_option linter.unusedVariables false
set_option linter.unusedSimpArgs false

namespace QDD.Mpi
open Prog

section model
variable {W : Type} [WOps W]

/-- `std::pair<std_complex, std::vector<vContent>>` (dd.cpp 686, 833). -/
structure Msg (W : Type) where
  w : W
  tab : List (Content W)

/-- One call: which of the two functions, `largest_qubit`, and every rank's edge of the gate. -/
structure Call (W : Type) where
  bcast : Bool
  largest : Nat
  lhs : Nat → Edge W

/-- `world.size() = 2^g`, `total_qubits = n`, the hash functions of every rank, the multi-threaded build, the calls
(`len` of them). -/
structure Job (W : Type) where
  g : Nat
  n : Nat
  env : Nat → Env W
  mt : Bool
  len : Nat
  call : Nat → Call W

variable (J : Job W)

/-- `world_size`. -/
def ws : Nat := 2 ^ J.g
/-- Qubits held by every rank. -/
def loc : Nat := J.n - J.g

/-- `largest_qubit < total_qubits - int(log2(world_size))` (dd.cpp 693, 829). -/
def Call.isLocal (c : Call W) : Bool := decide (c.largest < J.n - J.g)

/-- `small_world_size` (dd.cpp 697-698). -/
def Call.small (c : Call W) : Nat := 2 ^ (1 + c.largest + J.g - J.n)

/-- `offset` (dd.cpp 699). -/
def Call.offset (c : Call W) (r : Nat) : Nat := r - (r + ws J) % c.small J
/-- `left_neighbor` (dd.cpp 700). -/
def Call.left (c : Call W) (r : Nat) : Nat := (r + ws J - 1) % c.small J + c.offset J r
/-- `right_neighbor` (dd.cpp 701). -/
def Call.right (c : Call W) (r : Nat) : Nat := (r + 1 + ws J) % c.small J + c.offset J r
/-- `col` of round `i` on the ring (dd.cpp 708). -/
def Call.nb (c : Call W) (r i : Nat) : Nat := (r + ws J - i) % c.small J + c.offset J r

/-- First round of the loop (dd.cpp 703: 1, 838: 0). -/
def Call.first (c : Call W) : Nat := if c.bcast then 0 else 1
/-- One past the last round; no rounds when the gate is local. -/
def Call.last (c : Call W) : Nat := if c.isLocal J then c.first else if c.bcast then ws J else c.small J

/-- Where rank `s` sends in round `i`: to the right neighbour (705), or to everybody else if it is the root of the
broadcast (839-840). -/
def Call.dests (c : Call W) (i s : Nat) : List Nat :=
  if c.bcast then (if s = i then (List.range (ws J)).filter (· ≠ s) else []) else [c.right J s]

/-- Whom rank `d` receives from in round `i` (706, 841-843). -/
def Call.src (c : Call W) (i d : Nat) : Option Nat :=
  if c.bcast then (if d = i then none else some i) else some (c.left J d)

/-- The column of the block applied to what was received in round `i` (708, 844). -/
def Call.col (c : Call W) (i d : Nat) : Nat := if c.bcast then i else c.nb J d i

/-- Where a rank stands in the current call: at its start, at the top of round `i`, between sending and receiving, after
the computation of the round. -/
inductive Ph
  | enter
  | top (i : Nat)
  | sent (i : Nat)
  | got (i : Nat)
  deriving DecidableEq

/-- Position in program order. -/
def Ph.num : Ph → Nat
  | enter => 0
  | top i => 3 * i + 1
  | sent i => 3 * i + 2
  | got i => 3 * i + 3

/-- One rank: number of finished calls, position, engine state, `current`, `result`, `send_data`, `recv_data`. -/
structure Rank (W : Type) where
  t : Nat
  ph : Ph
  st : St W
  cur : Edge W
  res : Edge W
  out : Msg W
  inb : Msg W

/-- Channels are indexed by source, destination, and tag (broadcasts use a separate context). -/
abbrev Chan (W : Type) := Nat → Nat → Bool × Nat → List (Msg W)

structure Net (W : Type) where
  rk : Nat → Rank W
  q : Chan W

/-- `getMPIGate(lhs, row, col, world_size)` on the rank's own tables. -/
def gateP (c : Call W) (r col : Nat) : P W (Edge W) :=
  atom fun _ s => match getMPIGate s.mt.mem (c.lhs r) r col (ws J) with
    | .ok e => .ok (e, s)
    | .error er => .error er

/-- `vNode_to_vec(rhs.n, send_data.second, rhs_map)` (dd.cpp 696, 836). -/
def serP (e : Edge W) : P W (Msg W) :=
  atom fun _ s => match saveBinary s e with
    | .ok tab => .ok (⟨e.w, tab⟩, s)
    | .error er => .error er

/-- Everything before the loop (dd.cpp 689-701, 826-836). -/
def enterP (c : Call W) (r : Nat) (cur : Edge W) (old : Msg W) : P W (Edge W × Msg W) := do
  let gate ← gateP J c r r
  let res ← mvMul (J.env r) J.mt gate cur
  if c.isLocal J then return (res, old) else
  let m ← serP cur
  return (res, m)

/-- `{recv_data.first, vec_to_vNode(recv_data.second, vUnique)}` (dd.cpp 711-712, 845-846). -/
def deserP (r : Nat) (m : Msg W) : P W (Edge W) :=
  atom fun tid s => match fromVec (J.env r).hv tid false m.tab s.vt with
    | .ok (n, vt) => .ok (⟨m.w, n⟩, { s with vt := vt })
    | .error er => .error er

/-- The computation after the receive (dd.cpp 708-713, 844-847). -/
def recvP (fk : Nat → Bool) (c : Call W) (r i : Nat) (res : Edge W) (m : Msg W) : P W (Edge W) := do
  let gate ← gateP J c r (c.col J i r)
  let received ← deserP J r m
  let prod ← mvMul (J.env r) J.mt gate received
  vvAdd (J.env r) fk res prod

/-- Continue with round `i`, or return from the call (`current = result`). -/
def Rank.round (R : Rank W) (c : Call W) (i : Nat) : Rank W :=
  if i < c.last J then { R with ph := .top i } else { R with t := R.t + 1, ph := .enter, cur := R.res }

/-- `isend` / the root's part of `broadcast`. -/
def push (q : Chan W) (s : Nat) (ds : List Nat) (tag : Bool × Nat) (m : Msg W) : Chan W :=
  fun a b tg => if a = s ∧ b ∈ ds ∧ tg = tag then q a b tg ++ [m] else q a b tg

/-- A message is taken out. -/
def pop (q : Chan W) (s d : Nat) (tag : Bool × Nat) (rest : List (Msg W)) : Chan W :=
  fun a b tg => if a = s ∧ b = d ∧ tg = tag then rest else q a b tg

/-- `world.wait_all(send_reqs)` (dd.cpp 714) or the end of `broadcast`, in the least permissive MPI implementation: the send
completes when the receiver has taken the message out, and nobody leaves a broadcast before all ranks have come to it. -/
def WaitOk (x : Net W) (r i : Nat) : Prop :=
  let c := J.call (x.rk r).t
  (∀ d ∈ c.dests J i r, x.q r d (c.bcast, i) = []) ∧
  (c.bcast = true → ∀ r' < ws J, (x.rk r).t < (x.rk r').t ∨ ((x.rk r').t = (x.rk r).t ∧ 3 * i + 1 ≤ (x.rk r').ph.num))

/-- One step of rank `r`.  Local computations are one step (no other rank can see them), under any schedule of the rank's
own fibers.  With `strict` the sends complete as late as MPI allows, without it as early as it allows. -/
inductive Step (strict : Bool) (x : Net W) (r : Nat) : Net W → Prop
  | enter {e m s'} : r < ws J → (x.rk r).t < J.len → (x.rk r).ph = .enter →
      Steps (enterP J (J.call (x.rk r).t) r (x.rk r).cur (x.rk r).out) (x.rk r).st (Prog.ret (e, m)) s' →
      Step strict x r ⟨upd x.rk r
        ({ x.rk r with st := s', res := e, out := m }.round J (J.call (x.rk r).t) (J.call (x.rk r).t).first), x.q⟩
  | send {i} : r < ws J → (x.rk r).ph = .top i →
      Step strict x r ⟨upd x.rk r { x.rk r with ph := .sent i },
        push x.q r ((J.call (x.rk r).t).dests J i r) ((J.call (x.rk r).t).bcast, i) (x.rk r).out⟩
  | recv {i l m rest fk e s'} : r < ws J → (x.rk r).ph = .sent i → (J.call (x.rk r).t).src J i r = some l →
      x.q l r ((J.call (x.rk r).t).bcast, i) = m :: rest →
      Steps (recvP J fk (J.call (x.rk r).t) r i (x.rk r).res m) (x.rk r).st (Prog.ret e) s' →
      Step strict x r ⟨upd x.rk r { x.rk r with ph := .got i, st := s', res := e, inb := m },
        pop x.q l r ((J.call (x.rk r).t).bcast, i) rest⟩
  | root {i} : r < ws J → (x.rk r).ph = .sent i → (J.call (x.rk r).t).src J i r = none →
      Step strict x r ⟨upd x.rk r { x.rk r with ph := .got i }, x.q⟩
  | wait {i} : r < ws J → (x.rk r).ph = .got i → (strict = true → WaitOk J x r i) →
      Step strict x r ⟨upd x.rk r
        ({ x.rk r with out := if (J.call (x.rk r).t).bcast then (x.rk r).out else (x.rk r).inb }.round J
          (J.call (x.rk r).t) (i + 1)), x.q⟩

/-- The local computation rank `r` is about to do can get into an error state. -/
inductive Faulty (x : Net W) (r : Nat) : Prop
  | enter {p s} : r < ws J → (x.rk r).t < J.len → (x.rk r).ph = .enter →
      Steps (enterP J (J.call (x.rk r).t) r (x.rk r).cur (x.rk r).out) (x.rk r).st p s → Faults p s → Faulty x r
  | recv {i l m rest fk p s} : r < ws J → (x.rk r).ph = .sent i → (J.call (x.rk r).t).src J i r = some l →
      x.q l r ((J.call (x.rk r).t).bcast, i) = m :: rest →
      Steps (recvP J fk (J.call (x.rk r).t) r i (x.rk r).res m) (x.rk r).st p s → Faults p s → Faulty x r

/-- Runs of `k` steps of the ranks in any order. -/
inductive Run (strict : Bool) : Net W → Nat → Net W → Prop
  | nil {x} : Run strict x 0 x
  | cons {x k y r z} : Run strict x k y → Step J strict y r z → Run strict x (k + 1) z

/-- All ranks have returned from all calls. -/
def Done (x : Net W) : Prop := ∀ r < ws J, (x.rk r).t = J.len

end model
end QDD.Mpi
