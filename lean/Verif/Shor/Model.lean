import Mathlib.Data.Nat.GCD.Basic
/-!
# The classical part of Shor's algorithm (src/algorithms/shor.cpp, include/algorithms/shor.hpp)

Unsigned 64-bit arithmetic wraps around (`u64`); signed 32-bit arithmetic that overflows is
undefined behaviour, modelled by `none` of `int32`.
-/

namespace QDD.Shor

/-- A value of type `unsigned long long`: arithmetic is modulo 2^64. -/
def u64 (x : Nat) : Nat := x % 2 ^ 64

/-- The loop of `modpow` (shor.hpp 40-44). -/
def modpowLoop (m : Nat) (exp base result : Nat) : Nat :=
  if h : exp > 0 then
    modpowLoop m (exp >>> 1) (u64 (base * base) % m)
      (if exp &&& 1 ≠ 0 then u64 (result * base) % m else result)
  else result
termination_by exp
decreasing_by simp only [Nat.shiftRight_one]; omega

/-- `Shor::modpow` (shor.hpp 37-46). -/
def modpow (base exp m : Nat) : Nat := modpowLoop m exp (base % m) 1

/-- `Shor::gcd` (shor.hpp 48-56). -/
def gcd (a b : Nat) : Nat :=
  if h : a ≠ 0 then gcd (b % a) a else b
termination_by a
decreasing_by exact Nat.mod_lt _ (Nat.pos_of_ne_zero h)

/-- The result of a signed 32-bit operation: `none` when it overflows. -/
def int32 (x : Int) : Option Int := if -2 ^ 31 ≤ x ∧ x < 2 ^ 31 then some x else none

/-- What a call to `inverse_mod` does: return a value, `std::exit(3)`, or overflow. -/
inductive InvRes
  | ret (t : Int)
  | exit3
  | overflow
  deriving DecidableEq

/-- `Shor::inverse_mod` (shor.cpp 5-28): the loop with its variables `t`, `newt`, `r`, `newr`, and what
follows it. C++ `/` on ints rounds towards zero (`Int.tdiv`). -/
def inverseLoop (n : Int) (t newt r newr : Int) (fuel : Nat) : Option InvRes :=
  if newr ≠ 0 then
    match fuel with
    | 0 => none
    | fuel + 1 =>
      let quotient := r.tdiv newr
      match int32 (quotient * newt) with
      | none => some .overflow
      | some a =>
        match int32 (t - a) with
        | none => some .overflow
        | some newt' =>
          match int32 (quotient * newr) with
          | none => some .overflow
          | some b =>
            match int32 (r - b) with
            | none => some .overflow
            | some newr' => inverseLoop n newt newt' newr newr' fuel
  else if r > 1 then some .exit3
  else if t < 0 then
    match int32 (t + n) with
    | none => some .overflow
    | some x => some (.ret x)
  else some (.ret t)

/-- A call to `inverse_mod(a, n)` ends with `res` (for some number of loop iterations). -/
def InverseMod (a n : Int) (res : InvRes) : Prop := ∃ fuel, inverseLoop n 0 1 n a fuel = some res

/-- The measured number (shor.cpp 272-277): bits `required_bits ..< 3 * required_bits` of the sample, most
significant first; `sample.at` throws when the string is too short (`none`). -/
def readRes (sample : List Char) (rb : Nat) : Nat → Nat → Option Nat
  | 0, res => some res
  | k + 1, res =>
    match sample[rb + (2 * rb - (k + 1))]? with
    | none => none
    | some ch => readRes sample rb k (u64 (u64 (res <<< 1) + if ch = '1' then 1 else 0))

/-- The continued fraction expansion (shor.cpp 300-305). -/
def cfrac (res denom : Nat) : List Nat :=
  if h : res ≠ 0 then denom / res :: cfrac (denom % res) res else []
termination_by res
decreasing_by exact Nat.mod_lt _ (Nat.pos_of_ne_zero h)

/-- The inner loop computing the candidate fraction (shor.cpp 319-323): `j` runs from `i-1` down to 0; the
list is `cf[j], …, cf[0]`. Returns (numerator, denominator). -/
def candLoop : List Nat → Nat → Nat → Nat × Nat
  | [], num, den => (num, den)
  | c :: cs, num, den => candLoop cs den (u64 (num + u64 (c * den)))

/-- The `i`-th candidate (shor.cpp 316-323). -/
def cand (cf : List Nat) (i : Nat) : Nat × Nat := candLoop (cf.take i).reverse 1 (cf.getD i 0)

/-- The search for the period (shor.cpp 344-347). `fuel` bounds the iterations; `factLoop_ends` shows that
`n` is enough. -/
def factLoop (n a den : Nat) : Nat → Nat → Option Nat
  | 0, _ => none
  | fuel + 1, fact =>
    if u64 (den * fact) < n ∧ modpow a (u64 (den * fact)) n ≠ 1 then factLoop n a den fuel (u64 (fact + 1))
    else some fact

/-- The factors computed from a period (shor.cpp 360-366). -/
def factors (n a per : Nat) : Nat × Nat :=
  let x := modpow a (per >>> 1) n
  (gcd (if x = 0 then n - 1 else x - 1) n, gcd (u64 (x + 1) % n) n)

/-- The loop over the candidates (shor.cpp 314-408). `close` is the floating-point test of line 342 on
(old_res, old_denom, numerator, denominator), left arbitrary. `none`: the period search does not end. -/
def candidates (n a : Nat) (close : Nat → Nat → Bool) (cf : List Nat) : Nat → Nat → Option (Nat × Nat)
  | 0, _ => some (0, 0)
  | k + 1, i =>
    let c := cand cf i
    if c.2 > n then some (0, 0)
    else if close c.1 c.2 then
      match factLoop n a c.2 (n + 1) 1 with
      | none => none
      | some fact =>
        let per := u64 (c.2 * fact)
        if modpow a per n = 1 then
          if per &&& 1 ≠ 0 then some (0, 0)
          else
            let f := factors n a per
            if f.1 = 1 ∨ f.2 = 1 then some (0, 0) else some f
        else candidates n a close cf k (i + 1)
    else candidates n a close cf k (i + 1)

/-- What `post_processing` does: throws `std::out_of_range`, never ends, or returns a pair. -/
inductive PostRes
  | throws
  | diverges
  | ret (f1 f2 : Nat)
  deriving DecidableEq

/-- `Shor::post_processing` (shor.cpp 266-415) with `n`, `coprime_a`, `required_bits`; (0,0) is "failed".
The conversion to `unsigned int` in the returned pair is the modulus by 2^32. -/
def postProcessing (n a rb : Nat) (close : Nat → Nat → Nat → Nat → Bool) (sample : List Char) : PostRes :=
  match readRes sample rb (2 * rb) 0 with
  | none => .throws
  | some res =>
    let denom := u64 (1 <<< (2 * rb))
    if res = 0 then .ret 0 0
    else
      let cf := cfrac res denom
      match candidates n a (close res denom) cf cf.length 0 with
      | none => .diverges
      | some f => .ret (f.1 % 2 ^ 32) (f.2 % 2 ^ 32)

end QDD.Shor
