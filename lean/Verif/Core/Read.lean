import Verif.Core.Arith
/-!
# Readout: `getVector`, `getMatrix` (src/dd.cpp 185-251, 1322-1353)
-/

set_option linter.unusedSectionVars false
set_option linter.unusedVariables false
set_option linter.unusedSimpArgs false

namespace QDD
open ExactW Prog

section model
variable {W : Type} [WOps W]

/-- A freshly allocated C array: cells are unwritten until assigned. -/
structure Arr (W : Type) where
  dim : Nat
  cell : Nat → Option W

/-- `new std_complex[d]`. -/
def Arr.new (d : Nat) : Arr W := ⟨d, fun _ => none⟩

/-- `m[i] = w`; writing outside the array is an error. -/
def Arr.put (a : Arr W) (i : Nat) (w : W) : Except Err (Arr W) :=
  if i < a.dim then .ok { a with cell := upd a.cell i (some w) } else .error .oob

/-- `for (i = 0; i < n; i++) m[row | i] = wp` (dd.cpp 1332-1334). -/
def Arr.putAll (a : Arr W) (row : Nat) (w : W) : Nat → Except Err (Arr W)
  | 0 => .ok a
  | n + 1 => match a.putAll row w n with
    | .error e => .error e
    | .ok a' => a'.put (row ||| n) w

/-- `fillVector` (dd.cpp 1322-1341).  At `left = 0` a nonterminal edge would recurse with `left - 1`
wrapping around; that is an error here. -/
def fillV (mem : Nat → Option (VNode W)) : Nat → Edge W → Nat → W → Arr W → Except Err (Arr W)
  | 0, e, row, w, a => match e.n with
    | none => a.put row (WOps.mul e.w w)
    | some _ => .error .overflow
  | left + 1, e, row, w, a => match e.n with
    | none => a.putAll (row <<< (left + 1)) (WOps.mul e.w w) (2 ^ (left + 1))
    | some p => match mem p with
      | none => .error .badNode
      | some nd => match fillV mem left nd.c0 (row <<< 1 ||| 0) (WOps.mul e.w w) a with
        | .error er => .error er
        | .ok a => fillV mem left nd.c1 (row <<< 1 ||| 1) (WOps.mul e.w w) a

/-- `vEdge::getVector` (dd.cpp 1343-1353).  `1 << (q + 1)` is an `int` shift: from 31 qubits on it is
undefined. -/
def getVector (s : St W) (e : Edge W) : Except Err (Arr W) :=
  match e.n with
  | none => .error .assert
  | some p => match s.vt.mem p with
    | none => .error .badNode
    | some nd =>
      if nd.v + 1 < 0 ∨ 31 ≤ nd.v + 1 then .error .overflow else
      fillV s.vt.mem (nd.v + 1).toNat e 0 WOps.one (Arr.new (2 ^ (nd.v + 1).toNat))

/-- A freshly allocated `d × d` array of arrays. -/
structure Arr2 (W : Type) where
  dim : Nat
  cell : Nat → Nat → Option W

/-- `new std_complex*[d]` with `d` rows. -/
def Arr2.new (d : Nat) : Arr2 W := ⟨d, fun _ _ => none⟩

/-- `m[i][j] = w`. -/
def Arr2.put (a : Arr2 W) (i j : Nat) (w : W) : Except Err (Arr2 W) :=
  if i < a.dim ∧ j < a.dim then
    .ok { a with cell := fun x y => if x = i ∧ y = j then some w else a.cell x y }
  else .error .oob

/-- `fillMatrix` (dd.cpp 185-213) with `dim = 2^l`.  Terminal edges are only met with `dim = 1`, so the
double loop writes one cell; `dim/2` at `dim = 1` (endless recursion in C++) is an error here. -/
def fillM (mem : Nat → Option (MNode W)) : Nat → Edge W → Nat → Nat → W → Arr2 W → Except Err (Arr2 W)
  | 0, e, row, col, w, a =>
    match e.n with
    | none => a.put row col (WOps.mul e.w w)
    | some _ => .error .overflow
  | l + 1, e, row, col, w, a =>
    match evar mem e.n with
    | .error er => .error er
    | .ok v =>
      if v + 1 = ((l + 1 : Nat) : Int) then
        match e.n with
        | none => .error .overflow
        | some p => match mem p with
          | none => .error .badNode
          | some nd =>
            match fillM mem l nd.c0 row col (WOps.mul e.w w) a with
            | .error er => .error er
            | .ok a => match fillM mem l nd.c1 row (col + 2 ^ l) (WOps.mul e.w w) a with
              | .error er => .error er
              | .ok a => match fillM mem l nd.c2 (row + 2 ^ l) col (WOps.mul e.w w) a with
                | .error er => .error er
                | .ok a => fillM mem l nd.c3 (row + 2 ^ l) (col + 2 ^ l) (WOps.mul e.w w) a
      else
        match fillM mem l e row col w a with
        | .error er => .error er
        | .ok a => match fillM mem l e row (col + 2 ^ l) WOps.zero a with
          | .error er => .error er
          | .ok a => match fillM mem l e (row + 2 ^ l) col WOps.zero a with
            | .error er => .error er
            | .ok a => fillM mem l e (row + 2 ^ l) (col + 2 ^ l) w a

/-- `mEdge::getMatrix(dim, nQubits)` (dd.cpp 239-251). -/
def getMatrix (s : St W) (e : Edge W) (n : Nat) : Except Err (Arr2 W) :=
  if 31 ≤ n then .error .overflow else fillM s.mt.mem n e 0 0 WOps.one (Arr2.new (2 ^ n))

end model

variable {W : Type} [Field W] [WOps W] [ExactW W] {env : Env W}

theorem putAll_spec (row n l : Nat) (w : W) (hn : n ≤ 2 ^ l) (a : Arr W) (ha : row * 2 ^ l + 2 ^ l ≤ a.dim) :
    ∃ a', a.putAll (row <<< l) w n = .ok a' ∧ a'.dim = a.dim ∧
      (∀ x < n, a'.cell (row * 2 ^ l + x) = some w) ∧
      ∀ i, (i < row * 2 ^ l ∨ row * 2 ^ l + n ≤ i) → a'.cell i = a.cell i := by
  induction n with
  | zero => exact ⟨a, rfl, rfl, fun x h => by omega, fun i _ => rfl⟩
  | succ n ih =>
    obtain ⟨a1, h1, h2, h3, h4⟩ := ih (by omega)
    have hor : row <<< l ||| n = row * 2 ^ l + n := by
      rw [← Nat.shiftLeft_add_eq_or_of_lt (by omega), Nat.shiftLeft_eq]
    refine ⟨⟨a1.dim, upd a1.cell (row * 2 ^ l + n) (some w)⟩, ?_, h2, ?_, ?_⟩
    · simp only [Arr.putAll, h1, hor, Arr.put]
      rw [if_pos (by omega)]
    · intro x hx
      unfold upd
      by_cases h : x = n
      · subst h; simp
      · dsimp only; rw [if_neg (by omega)]; exact h3 x (by omega)
    · intro i hi
      unfold upd
      dsimp only
      rw [if_neg (by omega)]
      exact h4 i (by omega)

theorem fillV_spec {s : St W} (hi : Inv env s) : ∀ {l : Nat} {e : Edge W}, VOk env s l e → ∀ row w (a : Arr W),
    row * 2 ^ l + 2 ^ l ≤ a.dim →
    ∃ a', fillV s.vt.mem l e row w a = .ok a' ∧ a'.dim = a.dim ∧
      (∀ x < 2 ^ l, a'.cell (row * 2 ^ l + x) = some (w * vden s.vt.mem l e x)) ∧
      ∀ i, (i < row * 2 ^ l ∨ row * 2 ^ l + 2 ^ l ≤ i) → a'.cell i = a.cell i := by
  intro l
  induction l with
  | zero =>
    intro e h row w a ha
    have hn : e.n = none := by
      rcases h with (⟨_, h⟩ | ⟨p, nd, _, h2, h3⟩) | ⟨_, h⟩
      · exact h
      · obtain ⟨k, hk, _⟩ := hi.vlevel h2
        push_cast at h3; omega
      · exact h
    simp only [Nat.pow_zero, Nat.mul_one] at ha ⊢
    refine ⟨⟨a.dim, upd a.cell row (some (e.w * w))⟩, ?_, rfl, ?_, ?_⟩
    · simp only [fillV, hn, Arr.put, mul_eq]
      rw [if_pos (by omega)]
    · intro x hx
      have : x = 0 := by omega
      subst this
      simp [upd, vden, vptr, mul_comm]
    · intro i hi
      simp only [upd]
      rw [if_neg (by omega)]
  | succ l ih =>
    intro e h row w a ha
    have hp : 2 ^ (l + 1) = 2 ^ l + 2 ^ l := by rw [Nat.pow_succ]; omega
    have hpos : 0 < 2 ^ l := Nat.two_pow_pos l
    rcases h with (⟨h, _⟩ | ⟨p, nd, hn, h2, h3⟩) | ⟨hw, hn⟩
    · cases h
    · have hv : nd.v = (l : Int) := by push_cast at h3; omega
      have r0 : (row <<< 1 ||| 0) * 2 ^ l = row * 2 ^ (l + 1) := by
        rw [Nat.or_zero, Nat.shiftLeft_eq, Nat.pow_one, Nat.mul_assoc, ← Nat.pow_succ']
      have r1 : (row <<< 1 ||| 1) * 2 ^ l = row * 2 ^ (l + 1) + 2 ^ l := by
        rw [← Nat.shiftLeft_add_eq_or_of_lt (by decide), Nat.shiftLeft_eq, Nat.pow_one, Nat.add_mul,
          Nat.mul_assoc, ← Nat.pow_succ', Nat.one_mul]
      obtain ⟨a1, f1, d1, c1, o1⟩ := ih (e := nd.c0) ((hi.vn p nd h2).ok false hv) (row <<< 1 ||| 0) (e.w * w) a
        (by rw [r0]; omega)
      obtain ⟨a2, f2, d2, c2, o2⟩ := ih (e := nd.c1) ((hi.vn p nd h2).ok true hv) (row <<< 1 ||| 1) (e.w * w) a1
        (by rw [r1, d1]; omega)
      rw [r0] at c1 o1
      rw [r1] at c2 o2
      refine ⟨a2, ?_, d2.trans d1, ?_, ?_⟩
      · simp only [fillV, hn, h2.1, mul_eq, f1, f2]
      · intro x hx
        have key : ∀ b y, y < 2 ^ l → w * vden s.vt.mem (l + 1) e (bidx l b y) =
            e.w * w * vden s.vt.mem l (nd.child b) y := fun b y hy => by
          rw [vden, hn, vptr_top h2.1 b hy]; ring
        by_cases hlt : x < 2 ^ l
        · rw [o2 _ (by omega), c1 x hlt]
          have := key false x hlt
          simp only [bidx, Bool.false_eq_true, if_false] at this
          rw [this]; rfl
        · have hy : x - 2 ^ l < 2 ^ l := by omega
          have e1 : row * 2 ^ (l + 1) + x = row * 2 ^ (l + 1) + 2 ^ l + (x - 2 ^ l) := by omega
          have e2 : x = bidx l true (x - 2 ^ l) := by simp only [bidx, if_true]; omega
          rw [e1, c2 _ hy]
          have := key true _ hy
          rw [← e2] at this
          rw [this]; rfl
      · intro i hi'
        rw [o2 _ (by omega), o1 _ (by omega)]
    · obtain ⟨a', f, d, c, o⟩ := putAll_spec row (2 ^ (l + 1)) (l + 1) (e.w * w) (le_refl _) a ha
      refine ⟨a', ?_, d, ?_, o⟩
      · simp only [fillV, hn, mul_eq, f]
      · intro x hx
        rw [c x hx, vden_w0 hw, hw]; simp

/-- `getVector` returns exactly the amplitudes. -/
theorem getVector_spec {s : St W} (hi : Inv env s) {k : Nat} (hk : k ≤ 30) {e : Edge W} (h : VPtrOk env s k e.n)
    (hk0 : 0 < k) : ∃ a, getVector s e = .ok a ∧ a.dim = 2 ^ k ∧ ∀ i < 2 ^ k, a.cell i = some (vden s.vt.mem k e i) := by
  rcases h with ⟨h, _⟩ | ⟨p, nd, hn, h2, h3⟩
  · omega
  · have hv : (nd.v + 1).toNat = k := by omega
    have hok : VOk env s k e := .inl (.inr ⟨p, nd, hn, h2, h3⟩)
    obtain ⟨a, f, d, c, _⟩ := fillV_spec hi hok 0 WOps.one (Arr.new (2 ^ k)) (by simp [Arr.new])
    refine ⟨a, ?_, d, fun i hi' => ?_⟩
    · unfold getVector
      simp only [hn, h2.1, hv]
      rw [if_neg (by omega)]
      exact f
    · have := c i hi'
      simpa [one_eq] using this

theorem fillM_spec {s : St W} (hi : Inv env s) : ∀ {l : Nat} {e : Edge W}, MOk env s l e.n → ∀ row col w (a : Arr2 W),
    row + 2 ^ l ≤ a.dim → col + 2 ^ l ≤ a.dim →
    ∃ a', fillM s.mt.mem l e row col w a = .ok a' ∧ a'.dim = a.dim ∧
      (∀ x < 2 ^ l, ∀ y < 2 ^ l, a'.cell (row + x) (col + y) = some (w * mden s.mt.mem l e x y)) ∧
      ∀ i j, ((i < row ∨ row + 2 ^ l ≤ i) ∨ (j < col ∨ col + 2 ^ l ≤ j)) → a'.cell i j = a.cell i j := by
  intro l
  induction l with
  | zero =>
    intro e h row col w a ha hb
    have hn : e.n = none := by
      rcases h with h | ⟨p, nd, _, h2, h3⟩
      · exact h
      · obtain ⟨k, hk, _⟩ := hi.mlevel h2
        push_cast at h3; omega
    simp only [Nat.pow_zero] at ha hb ⊢
    refine ⟨⟨a.dim, fun x y => if x = row ∧ y = col then some (e.w * w) else a.cell x y⟩, ?_, rfl, ?_, ?_⟩
    · simp only [fillM, hn, Arr2.put, mul_eq]
      rw [if_pos (by omega)]
    · intro x hx y hy
      have : x = 0 := by omega
      subst this
      have : y = 0 := by omega
      subst this
      simp [mden, mptr, mul_comm]
    · intro i j hij
      dsimp only
      rw [if_neg (by omega)]
  | succ l ih =>
    intro e h row col w a ha hb
    have hp : 2 ^ (l + 1) = 2 ^ l + 2 ^ l := by rw [Nat.pow_succ]; omega
    have hpos : 0 < 2 ^ l := Nat.two_pow_pos l
    obtain ⟨v, hv, hv1, _, hv3, hv4⟩ := h.regM.evar hi
    -- four blocks, whatever the edges
    have four : ∀ (c : Bool → Bool → Edge W) (ww : Bool → Bool → W), (∀ r q, MOk env s l (c r q).n) →
        ∃ a', (match fillM s.mt.mem l (c false false) row col (ww false false) a with
            | .error er => Except.error er
            | .ok a => match fillM s.mt.mem l (c false true) row (col + 2 ^ l) (ww false true) a with
              | .error er => Except.error er
              | .ok a => match fillM s.mt.mem l (c true false) (row + 2 ^ l) col (ww true false) a with
                | .error er => Except.error er
                | .ok a => fillM s.mt.mem l (c true true) (row + 2 ^ l) (col + 2 ^ l) (ww true true) a) = .ok a' ∧
          a'.dim = a.dim ∧
          (∀ r q, ∀ x < 2 ^ l, ∀ y < 2 ^ l, a'.cell (row + bidx l r x) (col + bidx l q y) =
            some (ww r q * mden s.mt.mem l (c r q) x y)) ∧
          ∀ i j, ((i < row ∨ row + 2 ^ (l + 1) ≤ i) ∨ (j < col ∨ col + 2 ^ (l + 1) ≤ j)) →
            a'.cell i j = a.cell i j := by
      intro c ww hc
      obtain ⟨a1, f1, d1, c1, o1⟩ := ih (hc false false) row col (ww false false) a (by rw [hp] at ha; omega) (by rw [hp] at hb; omega)
      obtain ⟨a2, f2, d2, c2, o2⟩ := ih (hc false true) row (col + 2 ^ l) (ww false true) a1 (by rw [d1]; omega) (by rw [d1]; omega)
      obtain ⟨a3, f3, d3, c3, o3⟩ := ih (hc true false) (row + 2 ^ l) col (ww true false) a2 (by rw [d2, d1]; omega) (by rw [d2, d1]; omega)
      obtain ⟨a4, f4, d4, c4, o4⟩ := ih (hc true true) (row + 2 ^ l) (col + 2 ^ l) (ww true true) a3 (by rw [d3, d2, d1]; omega) (by rw [d3, d2, d1]; omega)
      refine ⟨a4, by simp only [f1, f2, f3, f4], by omega, ?_, ?_⟩
      · intro r q x hx y hy
        cases r <;> cases q <;> simp only [bidx, Bool.false_eq_true, if_false, if_true]
        · rw [o4 _ _ (by omega), o3 _ _ (by omega), o2 _ _ (by omega), c1 x hx y hy]
        · rw [o4 _ _ (by omega), o3 _ _ (by omega), ← c2 x hx y hy]; congr 1; omega
        · rw [o4 _ _ (by omega), ← c3 x hx y hy]; congr 1; omega
        · rw [← c4 x hx y hy]; congr 1 <;> omega
      · intro i j hij
        rw [o4 _ _ (by omega), o3 _ _ (by omega), o2 _ _ (by omega), o1 _ _ (by omega)]
    have split : ∀ x < 2 ^ (l + 1), ∃ b y, y < 2 ^ l ∧ x = bidx l b y := by
      intro x hx
      by_cases hlt : x < 2 ^ l
      · exact ⟨false, x, hlt, rfl⟩
      · exact ⟨true, x - 2 ^ l, by omega, by simp only [bidx, if_true]; omega⟩
    rcases h.split with ⟨p, nd, hn, h2, h3⟩ | ⟨hok, hnt⟩
    · have hvv : v = nd.v := by
        rw [hn] at hv; simp [evar, h2.1] at hv; exact hv.symm
      obtain ⟨a', f, d, c, o⟩ := four (fun r q => nd.child r q) (fun _ _ => e.w * w)
        (fun r q => (hi.mn p nd h2).ok' r q h3)
      refine ⟨a', ?_, d, ?_, o⟩
      · simp only [fillM, hv]
        rw [if_pos (by push_cast; omega)]
        simp only [hn, h2.1, mul_eq]
        exact f
      · intro x hx y hy
        obtain ⟨r, x', hx', rfl⟩ := split x hx
        obtain ⟨q, y', hy', rfl⟩ := split y hy
        rw [c r q x' hx' y' hy']
        congr 1
        unfold mden
        rw [hn, mptr_top h2.1 h3 r q hx' hy', mden]; ring
    · have hvv : ¬ (v + 1 = ((l + 1 : Nat) : Int)) := by
        have := (hv4 l).1 hok
        push_cast; omega
      obtain ⟨a', f, d, c, o⟩ := four (fun _ _ => e) (fun r q => if r = q then w else 0) (fun _ _ => hok)
      refine ⟨a', ?_, d, ?_, o⟩
      · simp only [fillM, hv]
        rw [if_neg hvv, zero_eq]
        simpa using f
      · intro x hx y hy
        obtain ⟨r, x', hx', rfl⟩ := split x hx
        obtain ⟨q, y', hy', rfl⟩ := split y hy
        rw [c r q x' hx' y' hy']
        congr 1
        unfold mden
        rw [mptr_skip hnt hok.deref r q hx' hy']
        split <;> ring

/-- `getMatrix` returns exactly the entries. -/
theorem getMatrix_spec {s : St W} (hi : Inv env s) {k : Nat} (hk : k ≤ 30) {e : Edge W} (h : MOk env s k e.n) :
    ∃ a, getMatrix s e k = .ok a ∧ a.dim = 2 ^ k ∧
      ∀ i < 2 ^ k, ∀ j < 2 ^ k, a.cell i j = some (mden s.mt.mem k e i j) := by
  obtain ⟨a, f, d, c, _⟩ := fillM_spec hi h 0 0 WOps.one (Arr2.new (2 ^ k)) (by simp [Arr2.new]) (by simp [Arr2.new])
  refine ⟨a, ?_, d, fun i hi' j hj => ?_⟩
  · unfold getMatrix
    rw [if_neg (by omega)]
    exact f
  · have := c i hi' j hj
    simpa [one_eq] using this

end QDD
