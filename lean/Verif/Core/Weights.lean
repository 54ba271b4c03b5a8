/-!
# Weights

The operations `Complex` (include/dd.h 22-140) offers to the decision-diagram code, as a *law-free* class.
Nothing is assumed about them, so theorems that only use `WOps` hold for IEEE doubles.
-/

namespace QDD

/-- Operations of `Complex` used by dd.cpp (include/dd.h 22-140).
* `zero`, `one`: `{0.0,0.0}`, `{1.0,0.0}`;
* `add`, `mul`, `div`: `operator+`, `operator*`, `operator/` (dd.h 112-128);
* `az`: `isApproximatelyZero` (dd.h 74-76); `ae`: `isApproximatelyEqual` (dd.h 78-86);
* `nz`: `norm(w) == 0.0` (dd.h 134-136 as used in dd.cpp 64);
* `lt`: `norm2(lhs) < norm2(rhs)` (dd.h 138-140 as used in dd.cpp 71, 114). -/
class WOps (W : Type) where
  zero : W
  one : W
  add : W → W → W
  mul : W → W → W
  div : W → W → W
  az : W → Bool
  ae : W → W → Bool
  nz : W → Bool
  lt : W → W → Bool

/-- `isApproximatelyOne` (dd.h 88-90): `isApproximatelyEqual({1.0, 0.0})`. -/
def WOps.aone {W : Type} [WOps W] (w : W) : Bool := WOps.ae w WOps.one

/-- The error outcomes of the model: everything the C++ leaves undefined or aborts on. -/
inductive Err
  | badNode   -- dereference of an address holding no node
  | oob       -- out-of-range index into a vector of tables or an array
  | assert    -- a failed `assert`
  | overflow  -- a shift or loop bound outside the range of the C++ integer type
  | exc       -- a thrown C++ exception
  deriving DecidableEq, Repr

/-- `NQUBITS` (include/common.h 28). -/
def NQUBITS : Nat := 100
/-- `NBUCKETS` (include/common.h 29). -/
def NBUCKETS : Nat := 524288

/-- Point update of a function. -/
def upd {α : Type} {β : Type} [DecidableEq α] (f : α → β) (a : α) (b : β) : α → β :=
  fun x => if x = a then b else f x

@[simp] theorem upd_same {α β : Type} [DecidableEq α] (f : α → β) (a : α) (b : β) : upd f a b a = b := by
  simp [upd]

theorem upd_ne {α β : Type} [DecidableEq α] (f : α → β) (a : α) (b : β) {x : α} (h : x ≠ a) :
    upd f a b x = f x := by simp [upd, h]

end QDD
