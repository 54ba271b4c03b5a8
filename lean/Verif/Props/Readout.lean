import Verif.Props.Demo
/-!
# C27: `getVector` and `getMatrix` read out the diagram

The value of a cell is described by walking the diagram along the bits of the index, highest qubit first,
multiplying the weights met on the way in the order the program multiplies them.  Nothing is assumed about the
weights, so the statement covers floating point: the *same* products in the *same* order.
-/

set_option linter.unusedSectionVars false
set_option linter.unusedVariables false
set_option linter.unusedSimpArgs false

namespace QDD.Props
open Spec Api Finset

section lawfree
variable {W : Type} [WOps W]

/-- Walking a vector diagram with `k` qubits left along the bits of `i`; `w` is the product so far, `r` the
product at the end.  A terminal edge ends the walk, whatever is left of the index. -/
inductive VWalk (mem : Nat → Option (VNode W)) (i : Nat) : Nat → Edge W → W → W → Prop
  | stop {k e w} : e.n = none → VWalk mem i k e w (WOps.mul e.w w)
  | down {k e w p nd r} : e.n = some p → mem p = some nd →
      VWalk mem i k (if i.testBit k then nd.c1 else nd.c0) (WOps.mul e.w w) r → VWalk mem i (k + 1) e w r

/-- Walking a matrix diagram along the bits of a row and a column index.  A level at which the edge has no node is
an identity level: on the diagonal the walk goes on, off the diagonal it goes on with product zero. -/
inductive MWalk (mem : Nat → Option (MNode W)) (i j : Nat) : Nat → Edge W → W → W → Prop
  | stop {e w} : e.n = none → MWalk mem i j 0 e w (WOps.mul e.w w)
  | down {k : Nat} {e w p nd r} : e.n = some p → mem p = some nd → nd.v = (k : Int) →
      MWalk mem i j k
        (if i.testBit k then (if j.testBit k then nd.c3 else nd.c2) else (if j.testBit k then nd.c1 else nd.c0))
        (WOps.mul e.w w) r → MWalk mem i j (k + 1) e w r
  | skip {k : Nat} {e w r} : (∀ p nd, e.n = some p → mem p = some nd → nd.v ≠ (k : Int)) →
      MWalk mem i j k e (if i.testBit k = j.testBit k then w else WOps.zero) r → MWalk mem i j (k + 1) e w r

theorem VWalk.congr {mem : Nat → Option (VNode W)} {i i' k : Nat} (h : LowEq k i i') {e : Edge W} {w r : W}
    (hw : VWalk mem i k e w r) : VWalk mem i' k e w r := by
  induction hw with
  | stop hn => exact .stop hn
  | @down k e w p nd r hn hp _ ih =>
    refine .down hn hp ?_
    rw [← h k (Nat.lt_succ_self k)]
    exact ih (h.mono (Nat.le_succ k))

theorem MWalk.congr {mem : Nat → Option (MNode W)} {i i' j j' k : Nat} (h : LowEq k i i') (h' : LowEq k j j')
    {e : Edge W} {w r : W} (hw : MWalk mem i j k e w r) : MWalk mem i' j' k e w r := by
  induction hw with
  | stop hn => exact .stop hn
  | @down k e w p nd r hn hp hv _ ih =>
    refine .down hn hp hv ?_
    rw [← h k (Nat.lt_succ_self k), ← h' k (Nat.lt_succ_self k)]
    exact ih (h.mono (Nat.le_succ k)) (h'.mono (Nat.le_succ k))
  | @skip k e w r hn _ ih =>
    refine .skip hn ?_
    rw [← h k (Nat.lt_succ_self k), ← h' k (Nat.lt_succ_self k)]
    exact ih (h.mono (Nat.le_succ k)) (h'.mono (Nat.le_succ k))

/-- The walk determines the product. -/
theorem VWalk.unique {mem : Nat → Option (VNode W)} {i k : Nat} {e : Edge W} {w r r' : W}
    (h : VWalk mem i k e w r) (h' : VWalk mem i k e w r') : r = r' := by
  induction h with
  | stop hn =>
    cases h' with
    | stop => rfl
    | down hn' => rw [hn] at hn'; cases hn'
  | down hn hp _ ih =>
    cases h' with
    | stop hn' => rw [hn] at hn'; cases hn'
    | down hn' hp' hw =>
      rw [hn] at hn'; cases hn'
      rw [hp] at hp'; cases hp'
      exact ih hw

theorem MWalk.unique {mem : Nat → Option (MNode W)} {i j k : Nat} {e : Edge W} {w r r' : W}
    (h : MWalk mem i j k e w r) (h' : MWalk mem i j k e w r') : r = r' := by
  induction h with
  | stop hn => cases h' with | stop => rfl
  | down hn hp hv _ ih =>
    cases h' with
    | down hn' hp' _ hw =>
      rw [hn] at hn'; cases hn'
      rw [hp] at hp'; cases hp'
      exact ih hw
    | skip hn' => exact absurd hv (hn' _ _ hn hp)
  | skip hs _ ih =>
    cases h' with
    | down hn' hp' hv => exact absurd hv (hs _ _ hn' hp')
    | skip _ hw => exact ih hw

theorem put_ok {a a' : Arr W} {i : Nat} {w : W} (h : a.put i w = .ok a') :
    i < a.dim ∧ a'.dim = a.dim ∧ a'.cell = upd a.cell i (some w) := by
  unfold Arr.put at h
  split at h
  · cases h; exact ⟨by assumption, rfl, rfl⟩
  · cases h

theorem put2_ok {a a' : Arr2 W} {i j : Nat} {w : W} (h : a.put i j w = .ok a') :
    a'.dim = a.dim ∧ a'.cell = fun x y => if x = i ∧ y = j then some w else a.cell x y := by
  unfold Arr2.put at h
  split at h
  · cases h; exact ⟨rfl, rfl⟩
  · cases h

theorem putAll_ok (row l : Nat) (w : W) : ∀ (n : Nat) (a a' : Arr W), n ≤ 2 ^ l → a.putAll (row <<< l) w n = .ok a' →
    a'.dim = a.dim ∧ (∀ x < n, a'.cell (row * 2 ^ l + x) = some w) ∧
      ∀ i, (i < row * 2 ^ l ∨ row * 2 ^ l + n ≤ i) → a'.cell i = a.cell i
  | 0, a, a', _, h => by cases h; exact ⟨rfl, fun x h => by omega, fun _ _ => rfl⟩
  | n + 1, a, a', hn, h => by
    simp only [Arr.putAll] at h
    split at h
    · cases h
    · rename_i a1 h1
      have hor : row <<< l ||| n = row * 2 ^ l + n := by
        rw [← Nat.shiftLeft_add_eq_or_of_lt (by omega), Nat.shiftLeft_eq]
      obtain ⟨d1, c1, o1⟩ := putAll_ok row l w n a a1 (by omega) h1
      obtain ⟨_, d2, c2⟩ := put_ok h
      rw [hor] at c2
      refine ⟨d2.trans d1, fun x hx => ?_, fun i hi => ?_⟩
      · rw [c2]; unfold upd
        by_cases hxn : x = n
        · subst hxn; simp
        · rw [if_neg (by omega)]; exact c1 x (by omega)
      · rw [c2]; unfold upd
        rw [if_neg (by omega)]; exact o1 i (by omega)

theorem fillV_walk (mem : Nat → Option (VNode W)) : ∀ (l : Nat) (e : Edge W) (row : Nat) (w : W) (a a' : Arr W),
    fillV mem l e row w a = .ok a' → a'.dim = a.dim ∧
      (∀ x < 2 ^ l, ∃ r, a'.cell (row * 2 ^ l + x) = some r ∧ VWalk mem x l e w r) ∧
      ∀ i, (i < row * 2 ^ l ∨ row * 2 ^ l + 2 ^ l ≤ i) → a'.cell i = a.cell i
  | 0, e, row, w, a, a', h => by
    simp only [fillV] at h
    split at h
    · rename_i hn
      obtain ⟨_, d, c⟩ := put_ok h
      refine ⟨d, fun x hx => ⟨_, ?_, .stop hn⟩, fun i hi => ?_⟩
      · have : x = 0 := by simpa using hx
        subst this; simp [c]
      · rw [c]; exact upd_ne _ _ _ (by omega)
    · cases h
  | l + 1, e, row, w, a, a', h => by
    have hp : 2 ^ (l + 1) = 2 ^ l + 2 ^ l := by rw [Nat.pow_succ]; omega
    have hpos : 0 < 2 ^ l := Nat.two_pow_pos l
    simp only [fillV] at h
    split at h
    · rename_i hn
      obtain ⟨d, c, o⟩ := putAll_ok row (l + 1) _ _ a a' (le_refl _) h
      exact ⟨d, fun x hx => ⟨_, c x hx, .stop hn⟩, o⟩
    · rename_i p hn
      split at h
      · cases h
      · rename_i nd hm
        split at h
        · cases h
        · rename_i a1 h1
          have r0 : (row <<< 1 ||| 0) * 2 ^ l = row * 2 ^ (l + 1) := by
            rw [Nat.or_zero, Nat.shiftLeft_eq, Nat.pow_one, Nat.mul_assoc, ← Nat.pow_succ']
          have r1 : (row <<< 1 ||| 1) * 2 ^ l = row * 2 ^ (l + 1) + 2 ^ l := by
            rw [← Nat.shiftLeft_add_eq_or_of_lt (by decide), Nat.shiftLeft_eq, Nat.pow_one, Nat.add_mul,
              Nat.mul_assoc, ← Nat.pow_succ', Nat.one_mul]
          obtain ⟨d1, c1, o1⟩ := fillV_walk mem l _ _ _ _ _ h1
          obtain ⟨d2, c2, o2⟩ := fillV_walk mem l _ _ _ _ _ h
          rw [r0] at c1 o1
          rw [r1] at c2 o2
          refine ⟨d2.trans d1, fun x hx => ?_, fun i hi => ?_⟩
          · by_cases hlt : x < 2 ^ l
            · obtain ⟨r, hr, hw⟩ := c1 x hlt
              refine ⟨r, ?_, .down hn hm ?_⟩
              · rw [o2 _ (by omega), hr]
              · rw [testBit_lt hlt]; exact hw
            · obtain ⟨r, hr, hw⟩ := c2 (x - 2 ^ l) (by omega)
              have hx' : x = 2 ^ l + (x - 2 ^ l) := by omega
              refine ⟨r, ?_, .down hn hm ?_⟩
              · rw [← hr]; congr 1; omega
              · rw [hx', testBit_add (by omega)]
                exact hw.congr fun b hb => (lowEq_add l _ b hb).symm
          · rw [o2 _ (by omega), o1 _ (by omega)]

/-- **C27 (vectors).**  Whatever the weights are: if `getVector` returns, the array has one cell per basis state
of the root's qubits, and every cell holds the product along the path of its index. -/
theorem C27_getVector {s : St W} {e : Edge W} {a : Arr W} (h : getVector s e = .ok a) :
    ∃ p nd, e.n = some p ∧ s.vt.mem p = some nd ∧ a.dim = 2 ^ (nd.v + 1).toNat ∧
      ∀ i < a.dim, ∃ r, a.cell i = some r ∧ VWalk s.vt.mem i (nd.v + 1).toNat e WOps.one r := by
  unfold getVector at h
  split at h
  · cases h
  · rename_i p hn
    split at h
    · cases h
    · rename_i nd hm
      split at h
      · cases h
      · obtain ⟨d, c, _⟩ := fillV_walk _ _ _ _ _ _ _ h
        refine ⟨p, nd, hn, hm, d, fun i hi => ?_⟩
        obtain ⟨r, hr, hw⟩ := c i (by rw [d] at hi; exact hi)
        exact ⟨r, by simpa using hr, hw⟩

theorem fillM_walk (mem : Nat → Option (MNode W)) : ∀ (l : Nat) (e : Edge W) (row col : Nat) (w : W) (a a' : Arr2 W),
    fillM mem l e row col w a = .ok a' → a'.dim = a.dim ∧
      (∀ x < 2 ^ l, ∀ y < 2 ^ l, ∃ r, a'.cell (row + x) (col + y) = some r ∧ MWalk mem x y l e w r) ∧
      ∀ i j, ((i < row ∨ row + 2 ^ l ≤ i) ∨ (j < col ∨ col + 2 ^ l ≤ j)) → a'.cell i j = a.cell i j
  | 0, e, row, col, w, a, a', h => by
    simp only [fillM] at h
    split at h
    · rename_i hn
      obtain ⟨d, c⟩ := put2_ok h
      refine ⟨d, fun x hx y hy => ⟨_, ?_, .stop hn⟩, fun i j hij => ?_⟩
      · have : x = 0 := by simpa using hx
        subst this
        have : y = 0 := by simpa using hy
        subst this
        simp [c]
      · simp only [Nat.pow_zero] at hij
        simp only [c]; rw [if_neg (by omega)]
    · cases h
  | l + 1, e, row, col, w, a, a', h => by
    have hp : 2 ^ (l + 1) = 2 ^ l + 2 ^ l := by rw [Nat.pow_succ]; omega
    have hpos : 0 < 2 ^ l := Nat.two_pow_pos l
    have four : ∀ (c : Bool → Bool → Edge W) (ww : Bool → Bool → W)
        (a1 a2 a3 : Arr2 W), fillM mem l (c false false) row col (ww false false) a = .ok a1 →
        fillM mem l (c false true) row (col + 2 ^ l) (ww false true) a1 = .ok a2 →
        fillM mem l (c true false) (row + 2 ^ l) col (ww true false) a2 = .ok a3 →
        fillM mem l (c true true) (row + 2 ^ l) (col + 2 ^ l) (ww true true) a3 = .ok a' →
          a'.dim = a.dim ∧
          (∀ x < 2 ^ (l + 1), ∀ y < 2 ^ (l + 1), ∃ r, a'.cell (row + x) (col + y) = some r ∧
            MWalk mem x y l (c (x.testBit l) (y.testBit l)) (ww (x.testBit l) (y.testBit l)) r) ∧
          ∀ i j, ((i < row ∨ row + 2 ^ (l + 1) ≤ i) ∨ (j < col ∨ col + 2 ^ (l + 1) ≤ j)) →
            a'.cell i j = a.cell i j := by
      intro c ww a1 a2 a3 h1 h2 h3 h
      obtain ⟨d1, c1, o1⟩ := fillM_walk mem l _ _ _ _ _ _ h1
      obtain ⟨d2, c2, o2⟩ := fillM_walk mem l _ _ _ _ _ _ h2
      obtain ⟨d3, c3, o3⟩ := fillM_walk mem l _ _ _ _ _ _ h3
      obtain ⟨d4, c4, o4⟩ := fillM_walk mem l _ _ _ _ _ _ h
      refine ⟨by omega, fun x hx y hy => ?_, fun i j hij => ?_⟩
      · have tb : ∀ z < 2 ^ (l + 1), ¬ z < 2 ^ l → z.testBit l = true ∧ LowEq l (z - 2 ^ l) z := by
          intro z hz hlt
          have hz' : z = 2 ^ l + (z - 2 ^ l) := by omega
          constructor
          · rw [hz', testBit_add (by omega)]
          · intro b hb
            conv_rhs => rw [hz']
            exact (lowEq_add l _ b hb).symm
        by_cases hxl : x < 2 ^ l <;> by_cases hyl : y < 2 ^ l
        · obtain ⟨r, hr, hw⟩ := c1 x hxl y hyl
          refine ⟨r, ?_, ?_⟩
          · rw [o4 _ _ (by omega), o3 _ _ (by omega), o2 _ _ (by omega), hr]
          · rw [testBit_lt hxl, testBit_lt hyl]; exact hw
        · obtain ⟨r, hr, hw⟩ := c2 x hxl (y - 2 ^ l) (by omega)
          refine ⟨r, ?_, ?_⟩
          · rw [o4 _ _ (by omega), o3 _ _ (by omega), ← hr]; congr 1; omega
          · rw [testBit_lt hxl, (tb y hy hyl).1]; exact hw.congr (fun _ _ => rfl) (tb y hy hyl).2
        · obtain ⟨r, hr, hw⟩ := c3 (x - 2 ^ l) (by omega) y hyl
          refine ⟨r, ?_, ?_⟩
          · rw [o4 _ _ (by omega), ← hr]; congr 1; omega
          · rw [testBit_lt hyl, (tb x hx hxl).1]; exact hw.congr (tb x hx hxl).2 (fun _ _ => rfl)
        · obtain ⟨r, hr, hw⟩ := c4 (x - 2 ^ l) (by omega) (y - 2 ^ l) (by omega)
          refine ⟨r, ?_, ?_⟩
          · rw [← hr]; congr 1 <;> omega
          · rw [(tb y hy hyl).1, (tb x hx hxl).1]; exact hw.congr (tb x hx hxl).2 (tb y hy hyl).2
      · rw [o4 _ _ (by omega), o3 _ _ (by omega), o2 _ _ (by omega), o1 _ _ (by omega)]
    simp only [fillM] at h
    split at h
    · cases h
    rename_i v hv
    split at h
    · rename_i hvl
      split at h
      · cases h
      rename_i p hn
      split at h
      · cases h
      rename_i nd hm
      have hnv : nd.v = (l : Int) := by
        simp only [hn, evar, hm] at hv
        have : nd.v = v := by injection hv
        push_cast at hvl; omega
      split at h
      · cases h
      rename_i a1 h1
      split at h
      · cases h
      rename_i a2 h2
      split at h
      · cases h
      rename_i a3 h3
      obtain ⟨d, c, o⟩ := four (fun r q => if r then (if q then nd.c3 else nd.c2) else (if q then nd.c1 else nd.c0))
        (fun _ _ => WOps.mul e.w w) a1 a2 a3 (by simpa using h1) (by simpa using h2) (by simpa using h3)
        (by simpa using h)
      refine ⟨d, fun x hx y hy => ?_, o⟩
      obtain ⟨r, hr, hw⟩ := c x hx y hy
      exact ⟨r, hr, .down hn hm hnv hw⟩
    · rename_i hvl
      split at h
      · cases h
      rename_i a1 h1
      split at h
      · cases h
      rename_i a2 h2
      split at h
      · cases h
      rename_i a3 h3
      obtain ⟨d, c, o⟩ := four (fun _ _ => e) (fun r q => if r = q then w else WOps.zero) a1 a2 a3
        (by simpa using h1) (by simpa using h2) (by simpa using h3) (by simpa using h)
      refine ⟨d, fun x hx y hy => ?_, o⟩
      obtain ⟨r, hr, hw⟩ := c x hx y hy
      refine ⟨r, hr, .skip ?_ hw⟩
      intro p nd hn hm hnv
      simp only [hn, evar, hm] at hv
      have : nd.v = v := by injection hv
      push_cast at hvl; omega

/-- **C27 (matrices).**  Whatever the weights are: if `getMatrix` for `n` qubits returns, the array is `2^n × 2^n`
and every cell holds the product along the path of its row and column index, identity levels filled in. -/
theorem C27_getMatrix {s : St W} {e : Edge W} {n : Nat} {a : Arr2 W} (h : getMatrix s e n = .ok a) :
    a.dim = 2 ^ n ∧
      ∀ i < 2 ^ n, ∀ j < 2 ^ n, ∃ r, a.cell i j = some r ∧ MWalk s.mt.mem i j n e WOps.one r := by
  unfold getMatrix at h
  split at h
  · cases h
  · obtain ⟨d, c, _⟩ := fillM_walk _ _ _ _ _ _ _ _ h
    exact ⟨d, fun i hi j hj => by simpa using c i hi j hj⟩

end lawfree

end QDD.Props
