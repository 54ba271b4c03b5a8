import Verif.Props.EstApprox
/-!
# C62: what the estimator returns in approximation mode, whatever the terms
-/

set_option linter.unusedSectionVars false
set_option linter.unusedVariables false
set_option linter.unusedSimpArgs false

namespace QDD.Props
open Spec Api Gate Finset Py Py.Client

variable {cfg : Cfg ℝ} {thr thrM : Nat} {cs : List (Cmd ℝ)} {h : Heap ℝ} {σ : Sys ℝ} {os : List (Obs ℝ)}
variable {Key : Type} [DecidableEq Key] {key : PCirc → Key} {P : PCirc → Prop}
variable {groups : List Py.Pauli → List (List Py.Pauli)} {prep : PCirc → Py.Pauli → PCirc}

/-- The term whose expectation value is computed in place of that of `p` when the qubits on which the basis `b` acts are
measured: if `p` acts on the `k`-th measured qubit, this one acts on qubit `k` - like `b`, or as `Z` if `b` does not act on
qubit `k`. -/
def misread (b p : Py.Pauli) : Py.Pauli := (List.range b.length).map fun k =>
  match b.support[k]? with
  | some q => if p.acts q then (if b.acts k then b.on k else (true, false)) else (false, false)
  | none => (false, false)

/-- The basis measured, `Z` where it does not act. -/
def filled (b : Py.Pauli) : Py.Pauli := (List.range b.length).map fun k => if b.acts k then b.on k else (true, false)

theorem on_map (n : Nat) (f : Nat → Bool × Bool) (q : Nat) : Pauli.on ((List.range n).map f) q = if q < n then f q else (false, false) := by
  unfold Py.Pauli.on
  rw [List.getD_eq_getElem?_getD, List.getElem?_map]
  by_cases h : q < n
  · simp [h]
  · simp [h]

theorem misread_on (b p : Py.Pauli) (k : Nat) (h : (misread b p).acts k = true) :
    k < b.length ∧ (misread b p).on k = (filled b).on k := by
  unfold Py.Pauli.acts at h
  unfold misread at h ⊢
  unfold filled
  rw [on_map] at h
  rw [on_map, on_map]
  by_cases hk : k < b.length
  · rw [if_pos hk] at h
    rw [if_pos hk, if_pos hk]
    refine ⟨hk, ?_⟩
    split at h
    · split at h
      · next h1 => rw [if_pos h1]
      · simp at h
    · simp at h
  · rw [if_neg hk] at h; simp at h

theorem on_ne {x : Bool × Bool} (h : (x.1 || x.2) = false) : x = (false, false) := by
  obtain ⟨a, b⟩ := x
  cases a <;> cases b <;> simp_all

theorem filled_acts (b : Py.Pauli) {k : Nat} (hk : k < b.length) : (filled b).acts k = true := by
  unfold Py.Pauli.acts filled
  rw [on_map, if_pos hk]
  by_cases h : b.acts k = true
  · rw [if_pos h]; exact h
  · rw [if_neg h]; rfl

theorem filled_support (b : Py.Pauli) : (filled b).support = List.range b.length := by
  unfold Py.Pauli.support
  rw [show (filled b).length = b.length by simp [filled]]
  exact List.filter_eq_self.2 fun k hk => filled_acts b (List.mem_range.1 hk)

theorem rots_filter (b : Py.Pauli) : ∀ l : List Nat, rots b (l.filter fun q => b.acts q) = rots b l := by
  intro l
  induction l with
  | nil => rfl
  | cons q l ih =>
    have e : rots b (q :: l) = rotA (b.on q) q ++ rots b l := by simp [rots]
    rw [List.filter_cons, e]
    by_cases h : b.acts q = true
    · rw [if_pos h, ← ih]; simp [rots]
    · rw [if_neg h, ih]
      have : b.on q = (false, false) := on_ne (by simpa [Py.Pauli.acts] using h)
      rw [this]; rfl

theorem filled_rots (b : Py.Pauli) : rots (filled b) (filled b).support = rots b b.support := by
  rw [filled_support]
  show _ = rots b ((List.range b.length).filter fun q => b.acts q)
  rw [rots_filter]
  unfold rots
  refine List.flatMap_congr fun q hq => ?_
  unfold filled
  rw [on_map, if_pos (List.mem_range.1 hq)]
  by_cases h : b.acts q = true
  · rw [if_pos h]
  · rw [if_neg h]
    have : b.on q = (false, false) := on_ne (by simpa [Py.Pauli.acts] using h)
    rw [this]; rfl

theorem hits_shift (p : Py.Pauli) (g : Nat → Bool) (i : Nat) : ∀ (qs : List Nat) (s : Nat), (∀ k (hk : k < qs.length), g (s + k) = p.acts qs[k]) →
    hits p qs ((List.range' s qs.length).map (i.testBit ·)) = ones i ((List.range' s qs.length).filter g) := by
  intro qs
  induction qs with
  | nil => intro s _; rfl
  | cons q qs ih =>
    intro s hg
    have h0 : g s = p.acts q := hg 0 (by simp)
    have h1 := ih (s + 1) fun k hk => by
      have := hg (k + 1) (by simpa using hk)
      rw [show s + (k + 1) = s + 1 + k by omega] at this
      simpa using this
    rw [List.length_cons, List.range'_succ, List.map_cons, hits, List.tail_cons, h1, List.headD_cons, List.filter_cons, h0]
    by_cases h : p.acts q = true
    · rw [if_pos h, h, Bool.true_and, ones, ones, List.countP_cons, Nat.add_comm]
    · rw [if_neg h]; simp [h]

theorem support_length (b : Py.Pauli) : b.support.length ≤ b.length := by
  unfold Py.Pauli.support
  exact (List.length_filter_le _ _).trans (by simp)

/-- What is computed from the probabilities of all qubits. -/
theorem expvalDist_misread {c : Circ} {b p : Py.Pauli} (hl : b.length = c.nq) :
    expvalDist b p (distOf c b) = expVal c.nq (misread b p) (evol c.nq c.data zeroState) := by
  have hm := support_length b
  rw [expvalDist_eq hl, expVal_rots (b := filled b) (by simpa [filled] using hl) (by simpa [misread] using hl) (fun q hq => (misread_on b p q hq).2),
    filled_rots, filled_support]
  refine Finset.sum_congr rfl fun i _ => ?_
  congr 2
  have hg : ∀ k (hk : k < b.support.length), (misread b p).acts (0 + k) = p.acts b.support[k] := by
    intro k hk
    have hkb : k < b.length := by omega
    rw [Nat.zero_add]
    have ha := filled_acts b hkb
    unfold Py.Pauli.acts misread
    rw [on_map, if_pos hkb, List.getElem?_eq_getElem hk]
    dsimp only
    by_cases h : p.acts b.support[k] = true
    · rw [if_pos h]
      unfold Py.Pauli.acts filled at ha
      rw [on_map, if_pos hkb] at ha
      rw [ha]; exact h.symm
    · rw [if_neg h]
      have : (p.on b.support[k]).1 = false ∧ (p.on b.support[k]).2 = false := by
        simpa [Py.Pauli.acts] using h
      simp [this]
  rw [List.range_eq_range', hits_shift p (misread b p).acts i b.support 0 hg]
  have : (List.range b.length).filter (misread b p).acts = (List.range' 0 b.support.length).filter (misread b p).acts := by
    rw [← List.range_eq_range']
    obtain ⟨d, hd⟩ := Nat.exists_eq_add_of_le hm
    rw [hd, List.range_add, List.filter_append]
    have : (List.map (b.support.length + ·) (List.range d)).filter (misread b p).acts = [] := by
      rw [List.filter_eq_nil_iff]
      intro k hk
      obtain ⟨j, hj, rfl⟩ := List.mem_map.1 hk
      unfold Py.Pauli.acts misread
      rw [on_map]
      split
      · rw [List.getElem?_eq_none (by omega)]; simp
      · simp
    rw [this, List.append_nil]
  rw [this]

/-- **C62, what is returned.**  After any history of the engine and any calls of the estimator, for a call in which every
circuit has at most 30 qubits and occurs with one list of values or one observable, whatever the terms: there are bases
`B`, compatible with the terms they measure, such that the value is that of the observable with every term misread in its
basis - exactly, with certainty. -/
theorem C62_actual (hR : Hist cfg thr thrM cs h σ os) (hQ : QiskitE h.ms key prep P) (hA : QiskitA prep P) (hG : Grouping groups)
    {s : Est Key} (hs : EReach key groups prep P s)
    {calls : List (PCirc × Observ × List ℝ)} (hne : calls ≠ []) (hP : ∀ a ∈ calls, P a.1) (h30 : ∀ p, P p → (p.at_ fun _ => 0).nq ≤ 30)
    (hv : ∀ a ∈ calls, a.2.2.length = a.1.params.length)
    (hobs : ∀ a ∈ calls, a.2.1 ≠ [] ∧ ∀ x ∈ a.2.1, x.1.length = (PCirc.withValues a.1 a.2.2).nq)
    (hone : ∀ a ∈ calls, Plain key calls a)
    (hid : ∀ a ∈ calls, ∃ b ∈ calls, key b.1 = key a.1 ∧ ∃ x ∈ b.2.1, x.1.isId = false)
    {shots : Shots} {others : List String} :
    ∃ (ds : List (List ℝ)) (B : Nat → Py.Pauli → Py.Pauli), Yields cfg
      (estRun key groups prep s (calls.map fun a => a.1) (calls.map fun a => a.2.1) (calls.map fun a => a.2.2) shots others true).2 σ
      (Values ds (calls.mapIdx fun i a => (a.2.1.map fun x => if x.1.isId then x.2 else
        expVal (PCirc.withValues a.1 a.2.2).nq (misread (B i x.1) x.1)
          (evol (PCirc.withValues a.1 a.2.2).nq (PCirc.withValues a.1 a.2.2).data zeroState) * x.2).sum)) 1 ∧
      ∀ (i : Nat) (hi : i < calls.length), ∀ x ∈ calls[i].2.1, x.1.isId = false →
        (B i x.1).length = (PCirc.withValues calls[i].1 calls[i].2.2).nq ∧ ∀ q, x.1.acts q = true → x.1.on q = (B i x.1).on q := by
  obtain ⟨ds, B, h1, h2⟩ := approx_call hR hQ hA hG hs hne hP h30 hv hobs hone hid (shots := shots) (others := others)
  refine ⟨ds, B, cast ?_ h1, fun i hi x hx hxid => ⟨(h2 i hi x hx hxid).1, (h2 i hi x hx hxid).2.1⟩⟩
  congr 2
  apply List.ext_getElem
  · simp
  · intro i a b
    have hi : i < calls.length := by simpa using b
    simp only [List.getElem_mapIdx]
    congr 1
    refine List.map_congr_left fun x hx => ?_
    by_cases hxid : x.1.isId = true
    · rw [if_pos hxid, if_pos hxid]
    · rw [if_neg hxid, if_neg hxid, expvalDist_misread (h2 i hi x hx (by simpa using hxid)).1]

/-- `Z` on the second of two qubits is read as `Z` on the first. -/
example : misread [(false, false), (true, false)] [(false, false), (true, false)] = [(true, false), (false, false)] := rfl

/-- `X` on the second and third of three qubits, as `Z` on the first and `X` on the second. -/
example : misread [(false, false), (false, true), (false, true)] [(false, false), (false, true), (false, true)] =
    [(true, false), (false, true), (false, false)] := rfl

end QDD.Props
