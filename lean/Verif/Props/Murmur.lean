import Mathlib.Logic.Function.Basic
/-!
# C49: `murmur_hash` is a bijection on 64-bit words
-/

namespace QDD.Props

/-- `murmur_hash` (include/common.h 60-68); `std::size_t` is a 64-bit word, `*=` wraps around. -/
def murmur (k : BitVec 64) : BitVec 64 :=
  let k := k ^^^ (k >>> 33)
  let k := k * 0xff51afd7ed558ccd#64
  let k := k ^^^ (k >>> 33)
  let k := k * 0xc4ceb9fe1a85ec53#64
  k ^^^ (k >>> 33)

/-- The shift-xor step undoes itself: the shift is more than half the width. -/
theorem shift_invol (k : BitVec 64) : (k ^^^ (k >>> 33)) ^^^ ((k ^^^ (k >>> 33)) >>> 33) = k := by
  apply BitVec.eq_of_getLsbD_eq
  intro i hi
  simp only [BitVec.getLsbD_xor, BitVec.getLsbD_ushiftRight]
  have : k.getLsbD (33 + (33 + i)) = false := BitVec.getLsbD_of_ge k _ (by omega)
  rw [this]
  cases k.getLsbD i <;> cases k.getLsbD (33 + i) <;> rfl

/-- The inverse function. -/
def unmurmur (k : BitVec 64) : BitVec 64 :=
  let k := k ^^^ (k >>> 33)
  let k := k * 0x9cb4b2f8129337db#64
  let k := k ^^^ (k >>> 33)
  let k := k * 0x4f74430c22a54005#64
  k ^^^ (k >>> 33)

theorem unmurmur_murmur (k : BitVec 64) : unmurmur (murmur k) = k := by
  unfold unmurmur murmur
  simp only [shift_invol, BitVec.mul_assoc]
  rw [show (0xc4ceb9fe1a85ec53#64 * 0x9cb4b2f8129337db#64) = 1#64 from by decide, BitVec.mul_one, shift_invol,
    BitVec.mul_assoc, show (0xff51afd7ed558ccd#64 * 0x4f74430c22a54005#64) = 1#64 from by decide, BitVec.mul_one, shift_invol]

theorem murmur_unmurmur (k : BitVec 64) : murmur (unmurmur k) = k := by
  unfold unmurmur murmur
  simp only [shift_invol, BitVec.mul_assoc]
  rw [show (0x4f74430c22a54005#64 * 0xff51afd7ed558ccd#64) = 1#64 from by decide, BitVec.mul_one, shift_invol,
    BitVec.mul_assoc, show (0x9cb4b2f8129337db#64 * 0xc4ceb9fe1a85ec53#64) = 1#64 from by decide, BitVec.mul_one, shift_invol]

/-- **C49.** `murmur_hash` is a bijection: different addresses have different hashes. -/
theorem C49_murmur : Function.Bijective murmur :=
  ⟨fun a b h => by rw [← unmurmur_murmur a, h, unmurmur_murmur], fun b => ⟨unmurmur b, murmur_unmurmur b⟩⟩

/-- A known value of the hash (`fmix64(1)`), so that the definition is the intended function. -/
example : murmur 1#64 = 0xb456bcfc34c2cb2c#64 := by decide

end QDD.Props
