import Verif.Core.Read
/-!
# Initial states and gate construction (src/dd.cpp 280-490, 1919-1971)
-/

set_option linter.unusedSectionVars false
set_option linter.unusedVariables false
set_option linter.unusedSimpArgs false

namespace QDD
open ExactW Prog

section model
variable {W : Type} [WOps W] (env : Env W)

/-- The loop `for (Qubit i = 1; i < q; i++) e = makeVEdge(i, {..})` of `makeZeroState` (dd.cpp 286-288) and
`makeOneState` (dd.cpp 308-310); `one` selects the child. `n` iterations are left, the next at `i`. -/
def basisLoop (one : Bool) : Nat → Nat → Edge W → P W (Edge W)
  | 0, _, e => pure e
  | n + 1, i, e => do
    let e ← mkV env i (if one then zeroE else e) (if one then e else zeroE)
    basisLoop one n (i + 1) e

/-- `makeZeroState` (dd.cpp 284-290). -/
def makeZeroState (q : Nat) : P W (Edge W) := do
  let e ← mkV env 0 oneE zeroE
  basisLoop env false (q - 1) 1 e

/-- `makeOneState` (dd.cpp 306-312). -/
def makeOneState (q : Nat) : P W (Edge W) := do
  let e ← mkV env 0 zeroE oneE
  basisLoop env true (q - 1) 1 e

/-- `Control` (dd.h 355-359). `Controls` is a `std::set` ordered by qubit, then type (dd.h 360-363): a list
in iteration order here. -/
structure Ctl where
  qubit : Nat
  neg : Bool
  deriving DecidableEq, Repr

/-- The body of the control loops of `makeGate`/`makeTwoQubitGate` for one edge (dd.cpp 341-357, 364-375,
403-420, 457-471, 478-488) at level `z`; `cs` is what the iterator `it` still has, `diag` is `b1 == b0`
(always true above the target). -/
def ctlStep (z : Nat) (cs : List Ctl) (diag : Bool) (e : Edge W) : P W (Edge W) :=
  let id : Edge W := if diag then oneE else zeroE
  match cs with
  | c :: _ =>
    if c.qubit = z then
      if c.neg then mkM env z e zeroE zeroE id else mkM env z id zeroE zeroE e
    else mkM env z e zeroE zeroE e
  | [] => mkM env z e zeroE zeroE e

/-- `if (it != c.end() && it->qubit == z) ++it` (dd.cpp 360). -/
def ctlNext (z : Nat) : List Ctl → List Ctl
  | c :: cs => if c.qubit = z then cs else c :: cs
  | [] => []

/-- The edge arrays `edges`, `edges_4x4`. -/
abbrev Grid (W : Type) := Nat → Nat → Edge W

/-- `edges[b1][b0] = e`. -/
def Grid.put (E : Grid W) (r c : Nat) (e : Edge W) : Grid W := fun x y => if x = r ∧ y = c then e else E x y

/-- The double loop over `b1`, `b0` (dd.cpp 337-359, 400-423) at level `z`, over the listed cells. -/
def ctlRow (z : Nat) (cs : List Ctl) : List (Nat × Nat) → Grid W → P W (Grid W)
  | [], E => pure E
  | (r, c) :: idx, E => do
    let e ← ctlStep env z cs (r == c) (E r c)
    ctlRow z cs idx (E.put r c e)

/-- `n` iterations of the loop over `z` (dd.cpp 336-361, 362-376, 399-427, 453-474, 477-489). -/
def ctlLoop (idx : List (Nat × Nat)) : Nat → Nat → List Ctl → Grid W → P W (Grid W × List Ctl)
  | 0, _, cs, E => pure (E, cs)
  | n + 1, z, cs, E => do
    let E ← ctlRow env z cs idx E
    ctlLoop idx n (z + 1) (ctlNext z cs) E

/-- `b1 = 0..1, b0 = 0..1`. -/
def idx2 : List (Nat × Nat) := [(0, 0), (0, 1), (1, 0), (1, 1)]
/-- `b1 = 0..3, b0 = 0..3`. -/
def idx4 : List (Nat × Nat) := (List.range 4).flatMap fun r => (List.range 4).map fun c => (r, c)

/-- A bit as an array index. -/
def nb (b : Bool) : Nat := if b then 1 else 0

/-- The loop above the (larger) target (dd.cpp 364-376, 477-489): the control loop on one edge, with
`makeIdent` on the untouched side. -/
def aboveLoop (q z : Nat) (cs : List Ctl) (e : Edge W) : P W (Edge W) := do
  let (E, _) ← ctlLoop env [(0, 0)] (q - z) z cs (fun _ _ => e)
  pure (E 0 0)

/-- `makeGate` (dd.cpp 328-379); `g r c` is `g[2 r + c]`. -/
def makeGate (q : Nat) (g : Nat → Nat → W) (target : Nat) (cs : List Ctl) : P W (Edge W) := do
  let (E, cs) ← ctlLoop env idx2 target 0 cs (fun r c => ⟨g r c, none⟩)
  let e ← mkM env target (E 0 0) (E 0 1) (E 1 0) (E 1 1)
  aboveLoop env q (target + 1) cs e

/-- `edges_4x4_sub[i * 2 + j]` (dd.cpp 432-448). -/
def sub4 (t0 t1 : Nat) (E : Grid W) (b1 b0 i j : Nat) : Edge W :=
  if t1 < t0 then E (b1 * 2 + i) (b0 * 2 + j) else E (i * 2 + b1) (j * 2 + b0)

/-- One combined edge `edges[b1 * 2 + b0]` (dd.cpp 449). -/
def sub4Edge (t0 t1 : Nat) (E : Grid W) (b1 b0 : Nat) : P W (Edge W) :=
  mkM env (min t0 t1 : Nat) (sub4 t0 t1 E b1 b0 0 0) (sub4 t0 t1 E b1 b0 0 1) (sub4 t0 t1 E b1 b0 1 0)
    (sub4 t0 t1 E b1 b0 1 1)

/-- `makeTwoQubitGate` (dd.cpp 386-494); `g r c` is `g[r][c]`. -/
def makeTwoQubitGate (q : Nat) (g : Nat → Nat → W) (t0 t1 : Nat) (cs : List Ctl) : P W (Edge W) := do
  let (E, cs) ← ctlLoop env idx4 (min t0 t1) 0 cs (fun r c => ⟨g r c, none⟩)
  let e00 ← sub4Edge env t0 t1 E 0 0
  let e01 ← sub4Edge env t0 t1 E 0 1
  let e10 ← sub4Edge env t0 t1 E 1 0
  let e11 ← sub4Edge env t0 t1 E 1 1
  let E2 : Grid W := fun r c => if r = 0 then (if c = 0 then e00 else e01) else (if c = 0 then e10 else e11)
  let z := min t0 t1 + 1
  let (E2, cs) ← ctlLoop env idx2 (max t0 t1 - z) z cs E2
  let z := max (max t0 t1) z
  let e ← mkM env (z : Nat) (E2 0 0) (E2 0 1) (E2 1 0) (E2 1 1)
  aboveLoop env q (z + 1) cs e

/-- `Xmat` (common.h 108). -/
def xmat (r c : Nat) : W := if r = c then WOps.zero else WOps.one

/-- `CX` (dd.cpp 1919-1925). -/
def gateCX (q target control : Nat) : P W (Edge W) := makeGate env q xmat target [⟨control, false⟩]

/-- `makeSwap`/`SWAP` (dd.cpp 1927-1936, 1958-1960). -/
def makeSwap (q t0 t1 : Nat) : P W (Edge W) := do
  let e1 ← makeGate env q xmat t1 [⟨t0, false⟩]
  let e2 ← makeGate env q xmat t0 [⟨t1, false⟩]
  let e3 ← mmMul env e2 e1
  mmMul env e1 e3

/-- `swap_matrix` (dd.cpp 2061-2066). -/
def swapMat (r c : Nat) : W :=
  if (r = 0 ∧ c = 0) ∨ (r = 1 ∧ c = 2) ∨ (r = 2 ∧ c = 1) ∨ (r = 3 ∧ c = 3) then WOps.one else WOps.zero

/-- `CSWAP` (dd.cpp 1967-1972). -/
def gateCSWAP (q t0 t1 control : Nat) : P W (Edge W) := makeTwoQubitGate env q swapMat t0 t1 [⟨control, false⟩]

end model

variable {W : Type} [Field W] [WOps W] [ExactW W] {env : Env W}

/-! ## Initial states -/

theorem oneE_vrep (s : St W) : VRep env s 0 oneE (fun _ => 1) :=
  ⟨.inl (.inl ⟨rfl, rfl⟩), fun i => by simp [vden, vptr, oneE_w]⟩

theorem basisLoop_sat (one : Bool) : ∀ (n i : Nat) {s : St W} {e : Edge W}, i + n ≤ NQUBITS → Inv env s →
    VRep env s i e (fun x => if ∀ b < i, x.testBit b = one then 1 else 0) →
    Sat (world env) (basisLoop env one n i e) s
      (fun s' e => VRep env s' (i + n) e (fun x => if ∀ b < i + n, x.testBit b = one then 1 else 0)) := by
  intro n
  induction n with
  | zero =>
    intro i s e _ hi h
    exact Sat.pure fun s' _ he => h.ext hi he
  | succ n ih =>
    intro i s e hn hi h
    unfold basisLoop
    have key : ∀ x : Nat, (∀ b < i + 1, x.testBit b = one) ↔ (x.testBit i = one ∧ ∀ b < i, x.testBit b = one) := by
      intro x
      constructor
      · intro h; exact ⟨h i (by omega), fun b hb => h b (by omega)⟩
      · rintro ⟨h1, h2⟩ b hb
        rcases Nat.lt_succ_iff_lt_or_eq.1 hb with h | rfl
        · exact h2 b h
        · exact h1
    have st : Sat (world env) (mkV env i (if one then zeroE else e) (if one then e else zeroE)) s
        (fun s' e => VRep env s' (i + 1) e (fun x => if ∀ b < i + 1, x.testBit b = one then 1 else 0)) := by
      cases one
      · refine Sat.mono (mkV_sat hi (by omega) h (zeroE_vrep s i)) fun s' e' _ _ hr => hr.congr fun x => ?_
        rw [if_congr (key x) rfl rfl]
        by_cases hb : x.testBit i <;> simp [hb]
      · refine Sat.mono (mkV_sat hi (by omega) (zeroE_vrep s i) h) fun s' e' _ _ hr => hr.congr fun x => ?_
        rw [if_congr (key x) rfl rfl]
        by_cases hb : x.testBit i <;> simp [hb]
    refine Sat.bind st fun s1 e1 hi1 he1 h1 => ?_
    have := ih (i + 1) (by omega) hi1 h1
    rwa [show i + 1 + n = i + (n + 1) by omega] at this

theorem basis_start (one : Bool) {s : St W} (hi : Inv env s) :
    Sat (world env) (if one = true then mkV env 0 zeroE oneE else mkV env 0 oneE zeroE) s
      (fun s' e => VRep env s' 1 e (fun x => if ∀ b < (1 : Nat), x.testBit b = one then 1 else 0)) := by
  have key : ∀ x : Nat, (∀ b < 1, x.testBit b = one) ↔ x.testBit 0 = one := fun x =>
    ⟨fun h => h 0 (by omega), fun h b hb => by obtain rfl : b = 0 := by omega
                                               exact h⟩
  cases one
  · refine Sat.mono (mkV_sat (k := 0) hi (by decide) (oneE_vrep s) (zeroE_vrep s 0)) fun s' e' _ _ hr =>
      hr.congr fun x => ?_
    rw [if_congr (key x) rfl rfl]
    by_cases hb : x.testBit 0 <;> simp [hb]
  · refine Sat.mono (mkV_sat (k := 0) hi (by decide) (zeroE_vrep s 0) (oneE_vrep s)) fun s' e' _ _ hr =>
      hr.congr fun x => ?_
    rw [if_congr (key x) rfl rfl]

theorem makeZeroState_sat {s : St W} (hi : Inv env s) {q : Nat} (h0 : 0 < q) (hq : q ≤ NQUBITS) :
    Sat (world env) (makeZeroState env q) s
      (fun s' e => VRep env s' q e (fun x => if ∀ b < q, x.testBit b = false then 1 else 0)) := by
  unfold makeZeroState
  refine Sat.bind (basis_start false hi) fun s1 e hi1 he1 h1 => ?_
  have := basisLoop_sat false (q - 1) 1 (by omega) hi1 h1
  rwa [show 1 + (q - 1) = q by omega] at this

theorem makeOneState_sat {s : St W} (hi : Inv env s) {q : Nat} (h0 : 0 < q) (hq : q ≤ NQUBITS) :
    Sat (world env) (makeOneState env q) s
      (fun s' e => VRep env s' q e (fun x => if ∀ b < q, x.testBit b = true then 1 else 0)) := by
  unfold makeOneState
  refine Sat.bind (basis_start true hi) fun s1 e hi1 he1 h1 => ?_
  have := basisLoop_sat true (q - 1) 1 (by omega) hi1 h1
  rwa [show 1 + (q - 1) = q by omega] at this

/-! ## Gates -/

/-- The rows agree on the bits below `z` outside `T`. -/
def Agree (z : Nat) (T : List Nat) (i j : Nat) : Prop := ∀ b < z, b ∉ T → i.testBit b = j.testBit b

instance (z : Nat) (T : List Nat) (i j : Nat) : Decidable (Agree z T i j) := by unfold Agree; infer_instance
instance (z i j : Nat) : Decidable (LowEq z i j) := by unfold LowEq; infer_instance

/-- All controls on qubits below `z` are satisfied by `i`. -/
def CtlOn (z : Nat) (cs : List Ctl) (i : Nat) : Prop := ∀ c ∈ cs, c.qubit < z → i.testBit c.qubit = !c.neg

instance (z : Nat) (cs : List Ctl) (i : Nat) : Decidable (CtlOn z cs i) := by unfold CtlOn; infer_instance

/-- Entry of a partially built gate block. -/
def ent (z : Nat) (T : List Nat) (cs : List Ctl) (A : Nat → Nat → W) (D : Nat → Nat → Bool) (i j : Nat) : W :=
  if Agree z T i j then (if CtlOn z cs i then A i j else if D i j then 1 else 0) else 0

/-- What the iterator still has at level `z`. -/
structure RestOk (cs : List Ctl) (z : Nat) (rest : List Ctl) : Prop where
  mem : ∀ c, c ∈ rest ↔ c ∈ cs ∧ z ≤ c.qubit
  ord : rest.Pairwise (fun a b => a.qubit < b.qubit)

theorem RestOk.next {cs z rest} (h : RestOk cs z rest) : RestOk cs (z + 1) (ctlNext z rest) := by
  cases rest with
  | nil =>
    refine ⟨fun c => ⟨fun hc => by simp [ctlNext] at hc, fun ⟨h1, h2⟩ => ?_⟩, List.Pairwise.nil⟩
    have := (h.mem c).2 ⟨h1, by omega⟩
    simp at this
  | cons c0 rest =>
    have ho := List.pairwise_cons.1 h.ord
    have h0 := (h.mem c0).1 List.mem_cons_self
    simp only [ctlNext]
    by_cases hz : c0.qubit = z
    · rw [if_pos hz]
      refine ⟨fun c => ⟨fun hc => ?_, fun ⟨h1, h2⟩ => ?_⟩, ho.2⟩
      · have := ho.1 c hc
        exact ⟨((h.mem c).1 (List.mem_cons_of_mem _ hc)).1, by omega⟩
      · have := (h.mem c).2 ⟨h1, by omega⟩
        rcases List.mem_cons.1 this with rfl | h3
        · omega
        · exact h3
    · rw [if_neg hz]
      refine ⟨fun c => ⟨fun hc => ⟨((h.mem c).1 hc).1, ?_⟩, fun ⟨h1, h2⟩ => (h.mem c).2 ⟨h1, by omega⟩⟩, h.ord⟩
      rcases List.mem_cons.1 hc with rfl | h3
      · omega
      · have := ho.1 c h3; omega

/-- No control sits at level `z`. -/
theorem RestOk.skip {cs z rest} (h : RestOk cs z rest) (hz : ∀ c ∈ cs, c.qubit ≠ z) : RestOk cs (z + 1) rest :=
  ⟨fun c => ⟨fun hc => ⟨((h.mem c).1 hc).1, by
      have a := (h.mem c).1 hc; have := hz c a.1; omega⟩, fun ⟨h1, h2⟩ => (h.mem c).2 ⟨h1, by omega⟩⟩, h.ord⟩

theorem ctlOn_succ {cs : List Ctl} {z i : Nat} :
    CtlOn (z + 1) cs i ↔ CtlOn z cs i ∧ ∀ c ∈ cs, c.qubit = z → i.testBit z = !c.neg := by
  constructor
  · intro h
    exact ⟨fun c hc hz => h c hc (by omega), fun c hc hz => by have := h c hc (by omega); rwa [hz] at this⟩
  · rintro ⟨h1, h2⟩ c hc hz
    rcases Nat.lt_succ_iff_lt_or_eq.1 hz with h | h
    · exact h1 c hc h
    · rw [h]; exact h2 c hc h

theorem agree_succ {T : List Nat} {z i j : Nat} (hz : z ∉ T) :
    Agree (z + 1) T i j ↔ (i.testBit z = j.testBit z ∧ Agree z T i j) := by
  constructor
  · intro h; exact ⟨h z (by omega) hz, fun b hb => h b (by omega)⟩
  · rintro ⟨h1, h2⟩ b hb hT
    rcases Nat.lt_succ_iff_lt_or_eq.1 hb with h | rfl
    · exact h2 b h hT
    · exact h1

theorem agree_skip {T : List Nat} {z i j : Nat} (hz : z ∈ T) : Agree (z + 1) T i j ↔ Agree z T i j := by
  constructor
  · intro h b hb; exact h b (by omega)
  · intro h b hb hT
    rcases Nat.lt_succ_iff_lt_or_eq.1 hb with h' | rfl
    · exact h b h' hT
    · exact (hT hz).elim

theorem lowEq_succ {z i j : Nat} : LowEq (z + 1) i j ↔ (i.testBit z = j.testBit z ∧ LowEq z i j) := by
  constructor
  · intro h; exact ⟨h z (by omega), h.mono (by omega)⟩
  · rintro ⟨h1, h2⟩ b hb
    rcases Nat.lt_succ_iff_lt_or_eq.1 hb with h | rfl
    · exact h2 b h
    · exact h1

/-- The identity condition of a cell: on diagonal cells it completes `Agree` to equality of the low bits, off
the diagonal it is false. -/
def DOk (z : Nat) (T : List Nat) (diag : Bool) (D : Nat → Nat → Bool) : Prop :=
  ∀ i j, (Agree z T i j ∧ D i j = true) ↔ (diag = true ∧ LowEq z i j)

theorem DOk.succ {z T diag D} (h : DOk z T diag D) (hz : z ∉ T) : DOk (z + 1) T diag D := by
  intro i j
  rw [agree_succ hz, lowEq_succ, and_assoc, h i j]
  tauto

theorem ident_mrep (s : St W) (z : Nat) : MRep env s z oneE (fun i j => if LowEq z i j then 1 else 0) := by
  refine ⟨.inl rfl, fun i j => ?_⟩
  rw [mden, oneE_w, one_mul]
  show mptr s.mt.mem z none i j = _
  induction z with
  | zero => simp [mptr, LowEq]
  | succ z ih =>
    simp only [mptr, ih]
    rw [if_congr lowEq_succ rfl rfl]
    by_cases hb : i.testBit z = j.testBit z <;> simp [hb]

theorem ctlStep_sat {s : St W} (hi : Inv env s) {z : Nat} (hz : z < NQUBITS) {T : List Nat} (hT : z ∉ T)
    {cs rest : List Ctl} (hr : RestOk cs z rest) {diag : Bool} {e : Edge W} {A : Nat → Nat → W}
    {D : Nat → Nat → Bool} (hD : DOk z T diag D) (he : MRep env s z e (ent z T cs A D)) :
    Sat (world env) (ctlStep env z rest diag e) s (fun s' e' => MRep env s' (z + 1) e' (ent (z + 1) T cs A D)) := by
  have hz0 := zeroE_mrep (env := env) s z
  have hid : MRep env s z (if diag = true then (oneE : Edge W) else zeroE)
      (fun i j => if diag = true ∧ LowEq z i j then 1 else 0) := by
    cases diag
    · simpa using hz0
    · simpa using ident_mrep (env := env) s z
  -- no control here
  have plain : (∀ c ∈ cs, c.qubit ≠ z) → Sat (world env) (mkM env z e zeroE zeroE e) s
      (fun s' e' => MRep env s' (z + 1) e' (ent (z + 1) T cs A D)) := by
    intro hno
    refine Sat.mono (mkM_sat (F := fun r c => if r = c then ent z T cs A D else fun _ _ => 0) hi hz
      (by simpa using he) (by simpa using hz0) (by simpa using hz0) (by simpa using he)) fun s' e' _ _ h => ?_
    refine h.1.congr fun i j => ?_
    have hc : CtlOn (z + 1) cs i ↔ CtlOn z cs i := by
      rw [ctlOn_succ]
      exact ⟨fun h => h.1, fun h => ⟨h, fun c hc hq => (hno c hc hq).elim⟩⟩
    unfold blocks ent
    rw [if_congr (agree_succ hT) rfl rfl, if_congr hc rfl rfl]
    by_cases hb : i.testBit z = j.testBit z <;> simp [hb]
  unfold ctlStep
  cases rest with
  | nil =>
    refine plain fun c hc hq => ?_
    have := (hr.mem c).2 ⟨hc, by omega⟩
    simp at this
  | cons c0 rest =>
    have h0 := (hr.mem c0).1 List.mem_cons_self
    have ho := List.pairwise_cons.1 hr.ord
    by_cases hq : c0.qubit = z
    · simp only [hq, if_true]
      have huniq : ∀ c ∈ cs, c.qubit = z → c = c0 := by
        intro c hc hcz
        rcases List.mem_cons.1 ((hr.mem c).2 ⟨hc, by omega⟩) with h | h
        · exact h
        · have := ho.1 c h; omega
      have hc : ∀ i, CtlOn (z + 1) cs i ↔ CtlOn z cs i ∧ i.testBit z = !c0.neg := by
        intro i
        rw [ctlOn_succ]
        constructor
        · rintro ⟨h1, h2⟩; exact ⟨h1, h2 c0 h0.1 hq⟩
        · rintro ⟨h1, h2⟩; exact ⟨h1, fun c hcs hcz => by rw [huniq c hcs hcz]; exact h2⟩
      have hDe : ∀ i j, (if diag = true ∧ LowEq z i j then (1 : W) else 0) =
          if Agree z T i j then (if D i j then 1 else 0) else 0 := by
        intro i j
        rw [if_congr (hD i j).symm rfl rfl]
        by_cases h1 : Agree z T i j <;> by_cases h2 : D i j = true <;> simp [h1, h2]
      by_cases hneg : c0.neg = true
      · simp only [hneg, if_true]
        refine Sat.mono (mkM_sat (F := fun r c => if r = c then (if r then
            (fun i j => if diag = true ∧ LowEq z i j then 1 else 0) else ent z T cs A D) else fun _ _ => 0) hi hz
          (by simpa using he) (by simpa using hz0) (by simpa using hz0) (by simpa using hid)) fun s' e' _ _ h => ?_
        refine h.1.congr fun i j => ?_
        unfold blocks
        rw [ent, if_congr (agree_succ hT) rfl rfl, if_congr (hc i) rfl rfl, hneg]
        by_cases hb : i.testBit z = j.testBit z
        · by_cases hb1 : j.testBit z = true
          · simp [hb, hb1, hDe]
          · simp [hb, hb1, ent]
        · simp [hb]
      · simp only [hneg, Bool.false_eq_true, if_false]
        refine Sat.mono (mkM_sat (F := fun r c => if r = c then (if r then ent z T cs A D else
            (fun i j => if diag = true ∧ LowEq z i j then 1 else 0)) else fun _ _ => 0) hi hz
          (by simpa using hid) (by simpa using hz0) (by simpa using hz0) (by simpa using he)) fun s' e' _ _ h => ?_
        refine h.1.congr fun i j => ?_
        unfold blocks
        rw [ent, if_congr (agree_succ hT) rfl rfl, if_congr (hc i) rfl rfl]
        by_cases hb : i.testBit z = j.testBit z
        · by_cases hb1 : j.testBit z = true
          · simp [hb, hb1, ent, hneg]
          · simp [hb, hb1, hDe, hneg]
        · simp [hb]
    · simp only [hq, if_false]
      refine plain fun c hc hcz => ?_
      rcases List.mem_cons.1 ((hr.mem c).2 ⟨hc, by omega⟩) with h | h
      · exact hq (h ▸ hcz)
      · have := ho.1 c h; omega

/-- All cells of `idx` hold the entries `A r c`. -/
def GridOk (env : Env W) (s : St W) (z : Nat) (T : List Nat) (cs : List Ctl) (idx : List (Nat × Nat))
    (A : Nat → Nat → Nat → Nat → W) (D : Nat → Nat → Nat → Nat → Bool) (E : Grid W) : Prop :=
  ∀ x ∈ idx, MRep env s z (E x.1 x.2) (ent z T cs (A x.1 x.2) (D x.1 x.2))

theorem GridOk.ext {s s' : St W} (hi : Inv env s) (he : SExt env s s') {z T cs idx A D E}
    (h : GridOk env s z T cs idx A D E) : GridOk env s' z T cs idx A D E := fun x hx => (h x hx).ext hi he

theorem ctlRow_sat {z : Nat} (hz : z < NQUBITS) {T : List Nat} (hT : z ∉ T) {cs rest : List Ctl}
    (hr : RestOk cs z rest) {A : Nat → Nat → Nat → Nat → W} {D : Nat → Nat → Nat → Nat → Bool} :
    ∀ (idx : List (Nat × Nat)) {s : St W} {E : Grid W}, Inv env s → idx.Nodup →
    (∀ x ∈ idx, DOk z T (x.1 == x.2) (D x.1 x.2)) → GridOk env s z T cs idx A D E →
    Sat (world env) (ctlRow env z rest idx E) s (fun s' E' => GridOk env s' (z + 1) T cs idx A D E' ∧
      ∀ r c, (r, c) ∉ idx → E' r c = E r c) := by
  intro idx
  induction idx with
  | nil => intro s E hi _ _ _; exact Sat.pure fun s' _ _ => ⟨fun x hx => by simp at hx, fun _ _ _ => rfl⟩
  | cons x idx ih =>
    obtain ⟨r, c⟩ := x
    intro s E hi hnd hD hE
    have hnd' := List.nodup_cons.1 hnd
    unfold ctlRow
    refine Sat.bind (ctlStep_sat hi hz hT hr (hD (r, c) List.mem_cons_self) (hE (r, c) List.mem_cons_self))
      fun s1 e hi1 he1 h1 => ?_
    have hput : ∀ x y, ¬ (x = r ∧ y = c) → (Grid.put E r c e) x y = E x y := fun x y h => if_neg h
    refine Sat.mono (ih hi1 hnd'.2 (fun x hx => hD x (List.mem_cons_of_mem _ hx)) ?_) ?_
    · intro x hx
      have hne : ¬ (x.1 = r ∧ x.2 = c) := fun h => hnd'.1 (by
        have : x = (r, c) := Prod.ext h.1 h.2
        exact this ▸ hx)
      rw [hput _ _ hne]
      exact (hE x (List.mem_cons_of_mem _ hx)).ext hi he1
    · rintro s2 E2 hi2 he2 ⟨h2, h3⟩
      refine ⟨fun x hx => ?_, fun x y hxy => ?_⟩
      · rcases List.mem_cons.1 hx with rfl | hx
        · rw [h3 r c hnd'.1]
          simp only [Grid.put, and_self, if_true]
          exact h1.ext hi1 he2
        · exact h2 x hx
      · have hxy' : ¬ ((x, y) = (r, c)) ∧ (x, y) ∉ idx := by simpa [not_or] using hxy
        rw [h3 x y hxy'.2, hput x y (fun h => hxy'.1 (by rw [h.1, h.2]))]

theorem ctlLoop_sat {idx : List (Nat × Nat)} (hnd : idx.Nodup) {T : List Nat} {cs : List Ctl}
    {A : Nat → Nat → Nat → Nat → W} {D : Nat → Nat → Nat → Nat → Bool} :
    ∀ (n z : Nat) {rest : List Ctl} {s : St W} {E : Grid W}, z + n ≤ NQUBITS → (∀ b, z ≤ b → b < z + n → b ∉ T) →
    RestOk cs z rest → Inv env s → (∀ x ∈ idx, DOk z T (x.1 == x.2) (D x.1 x.2)) →
    GridOk env s z T cs idx A D E →
    Sat (world env) (ctlLoop env idx n z rest E) s (fun s' x => GridOk env s' (z + n) T cs idx A D x.1 ∧
      RestOk cs (z + n) x.2 ∧ ∀ x ∈ idx, DOk (z + n) T (x.1 == x.2) (D x.1 x.2)) := by
  intro n
  induction n with
  | zero =>
    intro z rest s E _ _ hr hi hD hE
    exact Sat.pure fun s' _ he => ⟨hE.ext hi he, hr, hD⟩
  | succ n ih =>
    intro z rest s E hn hT hr hi hD hE
    have hzT : z ∉ T := hT z (le_refl _) (by omega)
    unfold ctlLoop
    refine Sat.bind (ctlRow_sat (by omega) hzT hr idx hi hnd hD hE) fun s1 E1 hi1 he1 h1 => ?_
    have := ih (z + 1) (by omega) (fun b h1 h2 => hT b (by omega) (by omega)) hr.next hi1
      (fun x hx => (hD x hx).succ hzT) h1.1
    rwa [show z + 1 + n = z + (n + 1) by omega] at this

theorem aboveLoop_sat {q z : Nat} (hzq : z ≤ q) (hq : q ≤ NQUBITS) {T : List Nat} (hT : ∀ t ∈ T, t < z)
    {cs rest : List Ctl} {A : Nat → Nat → W} {D : Nat → Nat → Bool} {s : St W} {e : Edge W} (hr : RestOk cs z rest)
    (hi : Inv env s) (hD : DOk z T true D) (he : MRep env s z e (ent z T cs A D)) :
    Sat (world env) (aboveLoop env q z rest e) s (fun s' e' => MRep env s' q e' (ent q T cs A D)) := by
  unfold aboveLoop
  have hl := ctlLoop_sat (env := env) (idx := [(0, 0)]) (by simp) (T := T) (cs := cs) (A := fun _ _ => A)
    (D := fun _ _ => D) (q - z) z (rest := rest) (s := s) (E := fun _ _ => e) (by omega)
    (fun b hb _ ht => by have := hT b ht; omega) hr hi (by simpa using hD) (by
      intro x hx
      exact he)
  refine Sat.bind hl fun s1 x hi1 he1 h1 => ?_
  obtain ⟨E, cs'⟩ := x
  refine Sat.pure fun s' _ he' => ?_
  have := (h1.1 (0, 0) (by simp)).ext hi1 he'
  rwa [show z + (q - z) = q by omega] at this

/-- The iterator at the start. -/
theorem RestOk.start {cs : List Ctl} (h : cs.Pairwise (fun a b => a.qubit < b.qubit)) : RestOk cs 0 cs :=
  ⟨fun c => by simp, h⟩

theorem term_mrep (s : St W) (T : List Nat) (cs : List Ctl) (w : W) (D : Nat → Nat → Bool) :
    MRep env s 0 ⟨w, none⟩ (ent 0 T cs (fun _ _ => w) D) :=
  ⟨.inl rfl, fun i j => by simp [mden, mptr, ent, Agree, CtlOn]⟩

/-- Assembling four cells at a target level. -/
theorem combine {s : St W} (hi : Inv env s) {z : Nat} (hz : z < NQUBITS) {T : List Nat} (hT : z ∈ T) {cs : List Ctl}
    (hcs : ∀ c ∈ cs, c.qubit ≠ z) {E : Bool → Bool → Edge W} {A : Bool → Bool → Nat → Nat → W}
    {D : Bool → Bool → Nat → Nat → Bool} (h : ∀ r c, MRep env s z (E r c) (ent z T cs (A r c) (D r c))) :
    Sat (world env) (mkM env z (E false false) (E false true) (E true false) (E true true)) s
      (fun s' e => MRep env s' (z + 1) e (ent (z + 1) T cs (fun i j => A (i.testBit z) (j.testBit z) i j)
        (fun i j => D (i.testBit z) (j.testBit z) i j))) := by
  refine Sat.mono (mkM_sat (F := fun r c => ent z T cs (A r c) (D r c)) hi hz (h _ _) (h _ _) (h _ _) (h _ _))
    fun s' e _ _ hr => hr.1.congr fun i j => ?_
  have hc : CtlOn (z + 1) cs i ↔ CtlOn z cs i := by
    rw [ctlOn_succ]
    exact ⟨fun h => h.1, fun h => ⟨h, fun c hc hq => (hcs c hc hq).elim⟩⟩
  unfold blocks ent
  rw [if_congr (agree_skip hT) rfl rfl, if_congr hc rfl rfl]

/-- Entry `(i, j)` of the one-qubit gate `g` on qubit `t` of `n` with the given controls. -/
def gate1 (n : Nat) (g : Nat → Nat → W) (t : Nat) (cs : List Ctl) (i j : Nat) : W :=
  if ∀ b < n, b ≠ t → i.testBit b = j.testBit b then
    if ∀ c ∈ cs, c.qubit < n → i.testBit c.qubit = !c.neg then g (nb (i.testBit t)) (nb (j.testBit t))
    else if i.testBit t = j.testBit t then 1 else 0
  else 0

theorem makeGate_sat {s : St W} (hi : Inv env s) {q t : Nat} (ht : t < q) (hq : q ≤ NQUBITS) {cs : List Ctl}
    (hord : cs.Pairwise (fun a b => a.qubit < b.qubit)) (hcs : ∀ c ∈ cs, c.qubit ≠ t) (g : Nat → Nat → W) :
    Sat (world env) (makeGate env q g t cs) s (fun s' e => MRep env s' q e (gate1 q g t cs)) := by
  unfold makeGate
  have hl := ctlLoop_sat (env := env) (idx := idx2) (by decide) (T := [t]) (cs := cs) (A := fun r c _ _ => g r c)
    (D := fun r c _ _ => r == c) t 0 (rest := cs) (s := s) (E := fun r c => ⟨g r c, none⟩) (by omega)
    (fun b hb hbt h => by simp at h; omega) (RestOk.start hord) hi
    (fun x _ i j => by
      simp only [Agree, LowEq]
      constructor
      · rintro ⟨_, h⟩; exact ⟨h, fun b hb => by omega⟩
      · rintro ⟨h, _⟩; exact ⟨fun b hb => by omega, h⟩)
    (fun x _ => term_mrep s _ _ _ _)
  refine Sat.bind hl fun s1 x hi1 he1 h1 => ?_
  obtain ⟨E, rest⟩ := x
  obtain ⟨hE, hrest, hD⟩ := h1
  simp only [Nat.zero_add] at hE hrest hD ⊢
  have hidx : ∀ r c : Bool, (nb r, nb c) ∈ idx2 := by decide
  have hcomb := combine (env := env) hi1 (z := t) (by omega) (T := [t]) (by simp) hcs
    (E := fun r c => E (nb r) (nb c)) (A := fun r c _ _ => g (nb r) (nb c)) (D := fun r c _ _ => nb r == nb c)
    (fun r c => hE _ (hidx r c))
  refine Sat.bind hcomb fun s2 e hi2 he2 h2 => ?_
  refine Sat.mono (aboveLoop_sat (q := q) (z := t + 1) (by omega) hq (T := [t]) (by simp)
    (hrest.skip hcs) hi2 ?_ h2) fun s3 e3 _ _ h3 => h3.congr fun i j => ?_
  · intro i j
    rw [agree_skip (by simp), lowEq_succ]
    have hnb : ∀ a b : Bool, (nb a == nb b) = true ↔ a = b := by decide
    constructor
    · rintro ⟨h1, h2⟩
      refine ⟨rfl, (hnb _ _).1 h2, fun b hb => h1 b hb (by simp; omega)⟩
    · rintro ⟨_, h1, h2⟩
      exact ⟨fun b hb _ => h2 b hb, (hnb _ _).2 h1⟩
  · have hnb : ∀ a b : Bool, (nb a == nb b) = true ↔ a = b := by decide
    unfold ent gate1 CtlOn Agree
    simp only [List.mem_singleton, hnb]

/-- Entry `(i, j)` of the two-qubit gate `g` on the ordered pair `(t0, t1)` (`t0` is the high index bit). -/
def gate2 (n : Nat) (g : Nat → Nat → W) (t0 t1 : Nat) (cs : List Ctl) (i j : Nat) : W :=
  if ∀ b < n, b ≠ t0 → b ≠ t1 → i.testBit b = j.testBit b then
    if ∀ c ∈ cs, c.qubit < n → i.testBit c.qubit = !c.neg then
      g (2 * nb (i.testBit t0) + nb (i.testBit t1)) (2 * nb (j.testBit t0) + nb (j.testBit t1))
    else if i.testBit t0 = j.testBit t0 ∧ i.testBit t1 = j.testBit t1 then 1 else 0
  else 0

/-- Row or column of the 4x4 matrix for the value `b` of the larger target bit and `x` of the smaller. -/
def ix4 (t0 t1 b x : Nat) : Nat := if t1 < t0 then b * 2 + x else x * 2 + b

theorem sub4Edge_sat {s : St W} (hi : Inv env s) {t0 t1 : Nat} (hne : t0 ≠ t1) (hz : min t0 t1 < NQUBITS)
    {cs : List Ctl} (hcs : ∀ c ∈ cs, c.qubit ≠ t0 ∧ c.qubit ≠ t1) {E : Grid W} {g : Nat → Nat → W}
    (hE : GridOk env s (min t0 t1) [t0, t1] cs idx4 (fun r c _ _ => g r c) (fun r c _ _ => r == c) E) (b1 b0 : Bool) :
    Sat (world env) (sub4Edge env t0 t1 E (nb b1) (nb b0)) s
      (fun s' e => MRep env s' (min t0 t1 + 1) e (ent (min t0 t1 + 1) [t0, t1] cs
        (fun i j => g (ix4 t0 t1 (nb b1) (nb (i.testBit (min t0 t1)))) (ix4 t0 t1 (nb b0) (nb (j.testBit (min t0 t1)))))
        (fun i j => ix4 t0 t1 (nb b1) (nb (i.testBit (min t0 t1))) == ix4 t0 t1 (nb b0) (nb (j.testBit (min t0 t1)))))) := by
  have hmem : min t0 t1 ∈ [t0, t1] := by simp; omega
  have hix : ∀ r c i j : Bool, (ix4 t0 t1 (nb r) (nb i), ix4 t0 t1 (nb c) (nb j)) ∈ idx4 := by
    unfold ix4; split <;> decide
  have hsub : ∀ i j : Bool, sub4 t0 t1 E (nb b1) (nb b0) (nb i) (nb j) =
      E (ix4 t0 t1 (nb b1) (nb i)) (ix4 t0 t1 (nb b0) (nb j)) := by
    intro i j; unfold sub4 ix4; split <;> rfl
  exact combine (env := env) hi hz hmem (fun c hc => by have := hcs c hc; omega)
    (E := fun i j => sub4 t0 t1 E (nb b1) (nb b0) (nb i) (nb j))
    (A := fun i j _ _ => g (ix4 t0 t1 (nb b1) (nb i)) (ix4 t0 t1 (nb b0) (nb j)))
    (D := fun i j _ _ => ix4 t0 t1 (nb b1) (nb i) == ix4 t0 t1 (nb b0) (nb j))
    (fun i j => by rw [hsub]; exact hE _ (hix b1 b0 i j))

theorem makeTwoQubitGate_sat {s : St W} (hi : Inv env s) {q t0 t1 : Nat} (ht0 : t0 < q) (ht1 : t1 < q)
    (hne : t0 ≠ t1) (hq : q ≤ NQUBITS) {cs : List Ctl} (hord : cs.Pairwise (fun a b => a.qubit < b.qubit))
    (hcs : ∀ c ∈ cs, c.qubit ≠ t0 ∧ c.qubit ≠ t1) (g : Nat → Nat → W) :
    Sat (world env) (makeTwoQubitGate env q g t0 t1 cs) s
      (fun s' e => MRep env s' q e (gate2 q g t0 t1 cs)) := by
  unfold makeTwoQubitGate
  have hl := ctlLoop_sat (env := env) (idx := idx4) (by decide) (T := [t0, t1]) (cs := cs) (A := fun r c _ _ => g r c)
    (D := fun r c _ _ => r == c) (min t0 t1) 0 (rest := cs) (s := s) (E := fun r c => ⟨g r c, none⟩) (by omega)
    (fun b hb hbt h => by simp at h; omega) (RestOk.start hord) hi
    (fun x _ i j => by
      simp only [Agree, LowEq]
      constructor
      · rintro ⟨_, h⟩; exact ⟨h, fun b hb => by omega⟩
      · rintro ⟨h, _⟩; exact ⟨fun b hb => by omega, h⟩)
    (fun x _ => term_mrep s _ _ _ _)
  refine Sat.bind hl fun s1 x hi1 he1 h1 => ?_
  obtain ⟨E, rest⟩ := x
  obtain ⟨hE, hrest, hD⟩ := h1
  simp only [Nat.zero_add] at hE hrest hD ⊢
  have hz : min t0 t1 < NQUBITS := by omega
  refine Sat.bind (sub4Edge_sat hi1 hne hz hcs hE false false) fun s2 e00 hi2 he2 r00 => ?_
  refine Sat.bind (sub4Edge_sat hi2 hne hz hcs (hE.ext hi1 he2) false true) fun s3 e01 hi3 he3 r01 => ?_
  refine Sat.bind (sub4Edge_sat hi3 hne hz hcs ((hE.ext hi1 he2).ext hi2 he3) true false)
    fun s4 e10 hi4 he4 r10 => ?_
  refine Sat.bind (sub4Edge_sat hi4 hne hz hcs (((hE.ext hi1 he2).ext hi2 he3).ext hi3 he4) true true)
    fun s5 e11 hi5 he5 r11 => ?_
  replace r00 := ((r00.ext hi2 he3).ext hi3 he4).ext hi4 he5
  replace r01 := (r01.ext hi3 he4).ext hi4 he5
  replace r10 := r10.ext hi4 he5
  have hmem : min t0 t1 ∈ [t0, t1] := by simp; omega
  have hmaxm : max t0 t1 ∈ [t0, t1] := by simp; omega
  have hixi : ∀ r c i j : Bool, (ix4 t0 t1 (nb r) (nb i) == ix4 t0 t1 (nb c) (nb j)) = true ↔ (r = c ∧ i = j) := by
    unfold ix4; split <;> decide
  let m := min t0 t1
  have hl2 := ctlLoop_sat (env := env) (idx := idx2) (by decide) (T := [t0, t1]) (cs := cs)
    (A := fun r c i j => g (ix4 t0 t1 r (nb (i.testBit m))) (ix4 t0 t1 c (nb (j.testBit m))))
    (D := fun r c i j => ix4 t0 t1 r (nb (i.testBit m)) == ix4 t0 t1 c (nb (j.testBit m)))
    (max t0 t1 - (m + 1)) (m + 1) (rest := rest) (s := s5)
    (E := fun r c => if r = 0 then (if c = 0 then e00 else e01) else (if c = 0 then e10 else e11))
    (by omega) (fun b hb hbt h => by simp at h; omega)
    (hrest.skip (fun c hc => by have := hcs c hc; omega)) hi5
    (by
      intro x hx i j
      have hx' : ∃ r c : Bool, x = (nb r, nb c) := by
        revert x; decide
      obtain ⟨r, c, rfl⟩ := hx'
      have hnb : ∀ a b : Bool, (nb a == nb b) = true ↔ a = b := by decide
      rw [agree_skip hmem, lowEq_succ]
      simp only [hixi, hnb]
      constructor
      · rintro ⟨h1, h2, h3⟩
        exact ⟨h2, h3, fun b hb => h1 b hb (by simp; omega)⟩
      · rintro ⟨h1, h2, h3⟩
        exact ⟨fun b hb _ => h3 b hb, h1, h2⟩)
    (by
      intro x hx
      have hx' : x = (nb false, nb false) ∨ x = (nb false, nb true) ∨ x = (nb true, nb false) ∨
          x = (nb true, nb true) := by
        revert x; decide
      rcases hx' with rfl | rfl | rfl | rfl
      · exact r00
      · exact r01
      · exact r10
      · exact r11)
  refine Sat.bind hl2 fun s6 x hi6 he6 h6 => ?_
  obtain ⟨E2, rest2⟩ := x
  obtain ⟨hE2, hrest2, hD2⟩ := h6
  have hzz : m + 1 + (max t0 t1 - (m + 1)) = max t0 t1 := by omega
  have hzm : max (max t0 t1) (m + 1) = max t0 t1 := by omega
  rw [hzz] at hE2 hrest2 hD2
  dsimp only
  rw [show min t0 t1 + 1 = m + 1 from rfl, hzm]
  have hidx : ∀ r c : Bool, (nb r, nb c) ∈ idx2 := by decide
  have hcomb := combine (env := env) hi6 (z := max t0 t1) (by omega) (T := [t0, t1]) hmaxm
    (fun c hc => by have := hcs c hc; omega)
    (E := fun r c => E2 (nb r) (nb c))
    (A := fun r c i j => g (ix4 t0 t1 (nb r) (nb (i.testBit m))) (ix4 t0 t1 (nb c) (nb (j.testBit m))))
    (D := fun r c i j => ix4 t0 t1 (nb r) (nb (i.testBit m)) == ix4 t0 t1 (nb c) (nb (j.testBit m)))
    (fun r c => hE2 _ (hidx r c))
  refine Sat.bind hcomb fun s7 e hi7 he7 h7 => ?_
  have hix : ∀ i : Nat, ix4 t0 t1 (nb (i.testBit (max t0 t1))) (nb (i.testBit m)) =
      2 * nb (i.testBit t0) + nb (i.testBit t1) := by
    intro i
    unfold ix4
    split
    · next h => rw [show max t0 t1 = t0 by omega, show m = t1 by omega]; omega
    · next h => rw [show max t0 t1 = t1 by omega, show m = t0 by omega]; omega
  have hbits : ∀ i j : Nat, (i.testBit (max t0 t1) = j.testBit (max t0 t1) ∧ i.testBit m = j.testBit m) ↔
      (i.testBit t0 = j.testBit t0 ∧ i.testBit t1 = j.testBit t1) := by
    intro i j
    by_cases h : t1 < t0
    · rw [show max t0 t1 = t0 by omega, show m = t1 by omega]
    · rw [show max t0 t1 = t1 by omega, show m = t0 by omega]; tauto
  refine Sat.mono (aboveLoop_sat (q := q) (z := max t0 t1 + 1) (by omega) hq (T := [t0, t1])
    (by intro t ht; simp at ht; omega) (hrest2.skip (fun c hc => by have := hcs c hc; omega)) hi7 ?_ h7)
    fun s8 e8 _ _ h8 => h8.congr fun i j => ?_
  · intro i j
    rw [agree_skip hmaxm, lowEq_succ]
    simp only [hixi, true_and]
    constructor
    · rintro ⟨h1, h2, h3⟩
      refine ⟨h2, fun b hb => ?_⟩
      by_cases hbm : b = m
      · rw [hbm]; exact h3
      · exact h1 b hb (by simp; omega)
    · rintro ⟨h1, h2⟩
      exact ⟨fun b hb _ => h2 b hb, h1, h2 m (by omega)⟩
  · unfold ent gate2 CtlOn Agree
    have hD' : ∀ i j : Nat, (2 * nb (i.testBit t0) + nb (i.testBit t1) == 2 * nb (j.testBit t0) + nb (j.testBit t1)) = true ↔
        (i.testBit t0 = j.testBit t0 ∧ i.testBit t1 = j.testBit t1) := fun i j => by
      rw [← hix, ← hix, hixi, hbits]
    simp only [hix, hD', List.mem_cons, List.not_mem_nil, or_false, not_or, and_imp, ne_eq]

end QDD
