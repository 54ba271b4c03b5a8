import Verif.Bench.Model
import Mathlib.Data.List.Perm.Basic
import Mathlib.Tactic.Linarith
/-!
# The multiply controlled NOT of the benchmark: `add_ck_not_circuit` flips the target exactly when all the
controls are set, whatever auxiliary qubits it takes, and returns them as it found them
-/
set_option linter.unusedVariables false
set_option linter.unusedSimpArgs false

namespace QDD.Bench

theorem exec_append (a b : List G) (s : S) : exec (a ++ b) s = exec b (exec a s) := by
  unfold exec; rw [List.foldl_append]

@[simp] theorem set_same (s : S) (q : Nat) (v : Bool) : set s q v q = v := by simp [set]
theorem set_other {s : S} {q i : Nat} {v : Bool} (h : i ≠ q) : set s q v i = s i := by simp [set, h]
theorem set_set (s : S) (q : Nat) (v w : Bool) : set (set s q v) q w = set s q w := by
  funext i; unfold set; split <;> rfl
theorem set_self (s : S) (q : Nat) : set s q (s q) = s := by
  funext i; unfold set; split
  · rename_i h; rw [h]
  · rfl

/-- Flip `t` if all the controls are set. -/
def cnot (ctl : List Nat) (t : Nat) (s : S) : S := if ctl.all s then set s t (!s t) else s

/-- The two lists are a partition of all the qubits. -/
def WF (b : B) : Prop := (b.clean ++ b.dirty).Perm (List.range (4 * b.n + 2))

/-- The clean qubits are 0. -/
def Z (l : List Nat) (s : S) : Prop := ∀ q ∈ l, s q = false

theorem WF.nodup {b : B} (h : WF b) : (b.clean ++ b.dirty).Nodup := h.nodup_iff.2 List.nodup_range
theorem WF.nodupC {b : B} (h : WF b) : b.clean.Nodup := (List.nodup_append.1 h.nodup).1
theorem WF.nodupD {b : B} (h : WF b) : b.dirty.Nodup := (List.nodup_append.1 h.nodup).2.1

theorem WF.lt {b : B} (h : WF b) {q : Nat} (hq : q ∈ b.clean ∨ q ∈ b.dirty) : q < 4 * b.n + 2 :=
  List.mem_range.1 (h.mem_iff.1 (List.mem_append.2 hq))

theorem WF.toDirty {b : B} (h : WF b) (q : Nat) : WF (toDirty b q) := by
  unfold Bench.toDirty
  split
  · rename_i hq
    unfold WF
    refine List.Perm.trans ?_ h
    rw [← List.append_assoc]
    refine (List.perm_append_comm).trans ?_
    refine List.Perm.trans ?_ (List.Perm.append_right _ (List.perm_cons_erase hq).symm)
    simp
  · exact h

theorem WF.toClean {b : B} (h : WF b) (q : Nat) : WF (toClean b q) := by
  unfold Bench.toClean
  split
  · rename_i hq
    unfold WF
    refine List.Perm.trans ?_ h
    rw [List.append_assoc]
    exact List.Perm.append_left _ (List.perm_cons_erase hq).symm
  · exact h

theorem mem_toDirty {b : B} (h : WF b) {q p : Nat} (hp : p ∈ (toDirty b q).clean) : p ∈ b.clean ∧ p ≠ q := by
  unfold Bench.toDirty at hp
  split at hp
  · rename_i hq
    have := (h.nodupC.mem_erase_iff).1 hp
    exact ⟨this.2, this.1⟩
  · rename_i hq
    exact ⟨hp, fun e => hq (e ▸ hp)⟩

theorem mem_toClean {b : B} {q p : Nat} (hp : p ∈ (toClean b q).clean) : p ∈ b.clean ∨ p = q := by
  unfold Bench.toClean at hp
  split at hp
  · simpa using hp
  · exact Or.inl hp

/-- Everything but the lists and the gates stays. -/
def Par (b b' : B) : Prop := b'.N = b.N ∧ b'.n = b.n ∧ b'.useClean = b.useClean

theorem Par.refl (b : B) : Par b b := ⟨rfl, rfl, rfl⟩
theorem Par.trans {a b c : B} (h : Par a b) (g : Par b c) : Par a c :=
  ⟨g.1.trans h.1, g.2.1.trans h.2.1, g.2.2.trans h.2.2⟩

theorem toDirty_par (b : B) (q : Nat) : Par b (toDirty b q) := by
  unfold Bench.toDirty; split <;> exact Par.refl _
theorem toClean_par (b : B) (q : Nat) : Par b (toClean b q) := by
  unfold Bench.toClean; split <;> exact Par.refl _
theorem toDirty_gates (b : B) (q : Nat) : (toDirty b q).gates = b.gates := by
  unfold Bench.toDirty; split <;> rfl
theorem toClean_gates (b : B) (q : Nat) : (toClean b q).gates = b.gates := by
  unfold Bench.toClean; split <;> rfl

theorem marks_ok {b : B} (h : WF b) (c1 c2 t : Nat) : WF (marks b c1 c2 t) ∧ Par b (marks b c1 c2 t) ∧ (marks b c1 c2 t).gates = b.gates ∧
    ∀ q ∈ (marks b c1 c2 t).clean, q ∈ b.clean := by
  unfold marks
  split
  · refine ⟨((h.toDirty _).toDirty _).toDirty _, ((toDirty_par _ _).trans (toDirty_par _ _)).trans (toDirty_par _ _),
      by rw [toDirty_gates, toDirty_gates, toDirty_gates], fun q hq => ?_⟩
    exact (mem_toDirty h (mem_toDirty (h.toDirty _) (mem_toDirty ((h.toDirty _).toDirty _) hq).1).1).1
  · exact ⟨h, Par.refl _, rfl, fun q hq => hq⟩

/-- `b'` extends `b` by classical gates that compute `f` on the states with `P` whose clean qubits are 0; the
clean qubits afterwards are among `K`. -/
structure Adds (b b' : B) (P : S → Prop) (f : S → S) (K : Nat → Prop) : Prop where
  par : Par b b'
  wf : WF b'
  sub : ∀ q ∈ b'.clean, K q
  gates : ∃ gs, b'.gates = b.gates ++ gs ∧ (∀ g ∈ gs, g.Classical (4 * b.n + 2)) ∧ ∀ s, P s → Z b.clean s → exec gs s = f s

theorem Adds.comp {a b c : B} {P Q : S → Prop} {f g : S → S} {K L : Nat → Prop} (h : Adds a b P f K) (k : Adds b c Q g L)
    (hPQ : ∀ s, P s → Z a.clean s → Q (f s) ∧ Z b.clean (f s)) : Adds a c P (fun s => g (f s)) L := by
  obtain ⟨g1, e1, c1, x1⟩ := h.gates
  obtain ⟨g2, e2, c2, x2⟩ := k.gates
  refine ⟨h.par.trans k.par, k.wf, k.sub, g1 ++ g2, by rw [e2, e1, List.append_assoc], ?_, ?_⟩
  · intro g hg
    rcases List.mem_append.1 hg with hg | hg
    · exact c1 g hg
    · rw [← h.par.2.1]; exact c2 g hg
  · intro s hp hz
    rw [exec_append, x1 s hp hz]
    obtain ⟨q1, q2⟩ := hPQ s hp hz
    exact x2 _ q1 q2

theorem Adds.mono {b b' : B} {P P' : S → Prop} {f f' : S → S} {K K' : Nat → Prop} (h : Adds b b' P f K)
    (hP : ∀ s, P' s → Z b.clean s → P s ∧ f s = f' s) (hK : ∀ q ∈ b'.clean, K q → K' q) : Adds b b' P' f' K' := by
  obtain ⟨gs, e, c, x⟩ := h.gates
  refine ⟨h.par, h.wf, fun q hq => hK q hq (h.sub q hq), gs, e, c, fun s hp hz => ?_⟩
  obtain ⟨a, b⟩ := hP s hp hz
  rw [x s a hz, b]

theorem Adds.nil {b : B} (h : WF b) (P : S → Prop) : Adds b b P (fun s => s) (fun q => q ∈ b.clean) :=
  ⟨Par.refl _, h, fun q hq => hq, [], by simp, by simp, fun s _ _ => rfl⟩

/-- One gate that makes its target dirty. -/
theorem adds_emit {b : B} (h : WF b) (g : G) (t : Nat) (hg : g.Classical (4 * b.n + 2)) :
    Adds b (toDirty (emit b g) t) (fun _ => True) g.on (fun q => q ∈ b.clean ∧ q ≠ t) := by
  have h' : WF (emit b g) := h
  refine ⟨Par.trans ⟨rfl, rfl, rfl⟩ (toDirty_par _ _), h'.toDirty t, fun q hq => mem_toDirty h' hq, [g], ?_, ?_, ?_⟩
  · rw [toDirty_gates]; rfl
  · intro g' hg'; rw [List.mem_singleton] at hg'; rw [hg']; exact hg
  · intro s _ _; rfl

theorem adds_ccx {b : B} (h : WF b) {c1 c2 t : Nat} (hg : (G.ccx c1 c2 t).Classical (4 * b.n + 2)) :
    Adds b (addCcx b c1 c2 t false) (fun _ => True) (cnot [c1, c2] t) (fun q => q ∈ b.clean ∧ q ≠ t) := by
  have h' : WF (emit b (.ccx c1 c2 t)) := h
  obtain ⟨m1, m2, m3, m4⟩ := marks_ok h' c1 c2 t
  refine ⟨(Par.trans ⟨rfl, rfl, rfl⟩ m2).trans (toDirty_par _ _), m1.toDirty t, fun q hq => ?_, [.ccx c1 c2 t], ?_, ?_, ?_⟩
  · obtain ⟨k1, k2⟩ := mem_toDirty m1 hq
    exact ⟨m4 q k1, k2⟩
  · show (toDirty _ _).gates = _
    rw [toDirty_gates, m3]; rfl
  · intro g' hg'; rw [List.mem_singleton] at hg'; rw [hg']; exact hg
  · intro s _ _; simp [exec, G.on, cnot]

theorem adds_ccx_clean {b : B} (h : WF b) {c1 c2 t : Nat} (hg : (G.ccx c1 c2 t).Classical (4 * b.n + 2)) :
    Adds b (addCcx b c1 c2 t true) (fun _ => True) (cnot [c1, c2] t) (fun q => q ∈ b.clean ∨ q = t) := by
  have h' : WF (emit b (.ccx c1 c2 t)) := h
  obtain ⟨m1, m2, m3, m4⟩ := marks_ok h' c1 c2 t
  refine ⟨(Par.trans ⟨rfl, rfl, rfl⟩ m2).trans (toClean_par _ _), m1.toClean t, fun q hq => ?_, [.ccx c1 c2 t], ?_, ?_, ?_⟩
  · exact (mem_toClean hq).imp_left (m4 q)
  · show (toClean _ _).gates = _
    rw [toClean_gates, m3]; rfl
  · intro g' hg'; rw [List.mem_singleton] at hg'; rw [hg']; exact hg
  · intro s _ _; simp [exec, G.on, cnot]

/-! ## The available auxiliary qubits -/

theorem foldl_erase_nodup : ∀ (ctl l : List Nat), l.Nodup → (ctl.foldl List.erase l).Nodup ∧
    ∀ q, q ∈ ctl.foldl List.erase l ↔ q ∈ l ∧ q ∉ ctl
  | [], l, h => ⟨h, fun q => by simp⟩
  | c :: ctl, l, h => by
    obtain ⟨h1, h2⟩ := foldl_erase_nodup ctl (l.erase c) (h.erase c)
    refine ⟨h1, fun q => ?_⟩
    rw [List.foldl_cons, h2, h.mem_erase_iff, List.mem_cons]
    tauto

theorem avail_nodup {l : List Nat} (h : l.Nodup) (ctl : List Nat) (t : Nat) : (avail l ctl t).Nodup :=
  (foldl_erase_nodup ctl _ (h.erase t)).1

theorem mem_avail {l : List Nat} (h : l.Nodup) {ctl : List Nat} {t q : Nat} : q ∈ avail l ctl t ↔ q ∈ l ∧ q ≠ t ∧ q ∉ ctl := by
  unfold avail
  rw [(foldl_erase_nodup ctl _ (h.erase t)).2, h.mem_erase_iff]
  tauto

/-- Enough of them. -/
theorem foldl_erase_length : ∀ (ctl l : List Nat), l.length ≤ (ctl.foldl List.erase l).length + ctl.length
  | [], l => by simp
  | c :: ctl, l => by
    have := foldl_erase_length ctl (l.erase c)
    have h2 : l.length ≤ (l.erase c).length + 1 := by rw [List.length_erase]; split <;> omega
    rw [List.foldl_cons, List.length_cons]
    omega

theorem avail_length (l ctl : List Nat) (t : Nat) : l.length ≤ (avail l ctl t).length + ctl.length + 1 := by
  have := foldl_erase_length ctl (l.erase t)
  have h2 : l.length ≤ (l.erase t).length + 1 := by rw [List.length_erase]; split <;> omega
  unfold avail
  omega

/-! ## The network with dirty auxiliary qubits -/

section
variable (ctl di : List Nat)

/-- One gate of the chain. -/
def st (i : Nat) : G := .ccx (ctl.getD i 0) (di.getD i 0) (di.getD (i - 1) 0)

def up (k : Nat) : List G := (List.range k).map (fun i => st ctl di (i + 1))

def dn : Nat → List G
  | 0 => []
  | k + 1 => st ctl di (k + 1) :: dn k

theorem up_succ (k : Nat) : up ctl di (k + 1) = up ctl di k ++ [st ctl di (k + 1)] := by
  unfold up; rw [List.range_succ, List.map_append]; rfl

/-- Toggle the auxiliary qubits from number `j` on. -/
def tog (j : Nat) (s : S) : S := fun q =>
  if j ≤ di.idxOf q ∧ di.idxOf q < ctl.length - 2 then xor (s q) ((ctl.drop (di.idxOf q + 1)).all s) else s q

variable {ctl di}

theorem tog_at (hd : di.Nodup) {j l : Nat} (hl : l < di.length) (s : S) :
    tog ctl di j s di[l] = if j ≤ l ∧ l < ctl.length - 2 then xor (s di[l]) ((ctl.drop (l + 1)).all s) else s di[l] := by
  unfold tog
  rw [hd.idxOf_getElem l hl]

theorem tog_out {j q : Nat} (hl : q ∉ di) (hlen : ctl.length - 2 ≤ di.length) (s : S) : tog ctl di j s q = s q := by
  unfold tog
  rw [List.idxOf_eq_length hl, if_neg (by omega)]

theorem all_congr_on {l : List Nat} {s s' : S} (h : ∀ q ∈ l, s q = s' q) : l.all s = l.all s' := by
  rw [Bool.eq_iff_iff, List.all_eq_true, List.all_eq_true]
  constructor
  · intro g q hq; rw [← h q hq]; exact g q hq
  · intro g q hq; rw [h q hq]; exact g q hq

theorem flip_if (s : S) (t : Nat) (c : Bool) : (if c then set s t (!s t) else s) = set s t (xor (s t) c) := by
  cases c
  · rw [Bool.xor_false, set_self]; rfl
  · rw [Bool.xor_true]; rfl

theorem ne_of_nm {l : List Nat} {q a : Nat} (h : q ∉ l) (ha : a ∈ l) : q ≠ a := fun e => h (e ▸ ha)

theorem ccx_on {c1 c2 t : Nat} (s : S) : (G.ccx c1 c2 t).on s = set s t (xor (s t) (s c1 && s c2)) := by
  unfold G.on
  exact flip_if s t _

theorem nested (hd : di.Nodup) (hdis : ∀ q ∈ di, q ∉ ctl) (hlen : ctl.length - 2 ≤ di.length) :
    ∀ k, k + 3 ≤ ctl.length → ∀ mid, (∀ s, exec mid s = tog ctl di k s) →
      ∀ s, exec (up ctl di k ++ mid ++ dn ctl di k) s = tog ctl di 0 s := by
  intro k
  induction k with
  | zero => intro _ mid h s; simpa [up, dn] using h s
  | succ k ih =>
    intro hk mid h s
    have e : up ctl di (k + 1) ++ mid ++ dn ctl di (k + 1) =
        up ctl di k ++ ([st ctl di (k + 1)] ++ mid ++ [st ctl di (k + 1)]) ++ dn ctl di k := by
      rw [up_succ]; simp [dn]
    rw [e]
    apply ih (by omega)
    intro s
    rw [exec_append, exec_append]
    show (st ctl di (k + 1)).on (exec mid ((st ctl di (k + 1)).on s)) = _
    rw [h]
    have h1 : k + 1 < ctl.length := by omega
    have h2 : k + 1 < di.length := by omega
    have h3 : k < di.length := by omega
    have e1 : ctl.getD (k + 1) 0 = ctl[k + 1] := by simp [List.getD, h1]
    have e2 : di.getD (k + 1) 0 = di[k + 1] := by simp [List.getD, h2]
    have e3 : di.getD (k + 1 - 1) 0 = di[k] := by simp [List.getD, h3]
    unfold st
    rw [e1, e2, e3, ccx_on, ccx_on]
    have hne : di[k + 1] ≠ di[k] := by
      intro he
      have := (hd.getElem_inj_iff).1 he
      omega
    have hc : ∀ c ∈ ctl, ∀ d ∈ di, c ≠ d := fun c hc d hd' he => hdis d hd' (he ▸ hc)
    have hck : ctl[k + 1] ≠ di[k] := hc _ (List.getElem_mem _) _ (List.getElem_mem _)
    have hall : ∀ (l v : Nat) (w : Bool), v ∈ di → (ctl.drop l).all (set s v w) = (ctl.drop l).all s := fun l v w hv =>
      all_congr_on fun q hq => set_other (hc q (List.mem_of_mem_drop hq) v hv)
    generalize hw : xor (s di[k]) (s ctl[k + 1] && s di[k + 1]) = w
    have t1 : tog ctl di (k + 1) (set s di[k] w) di[k] = w := by
      rw [tog_at hd h3, if_neg (by omega), set_same]
    have t2 : tog ctl di (k + 1) (set s di[k] w) ctl[k + 1] = s ctl[k + 1] := by
      rw [tog_out (fun hm => hdis _ hm (List.getElem_mem _)) hlen, set_other hck]
    have t3 : tog ctl di (k + 1) (set s di[k] w) di[k + 1] = xor (s di[k + 1]) ((ctl.drop (k + 2)).all s) := by
      rw [tog_at hd h2, if_pos ⟨le_rfl, by omega⟩, set_other hne, hall _ _ _ (List.getElem_mem _)]
    rw [t1, t2, t3]
    have hdrop : (ctl.drop (k + 1)).all s = (s ctl[k + 1] && (ctl.drop (k + 2)).all s) := by
      rw [List.drop_eq_getElem_cons h1, List.all_cons]
    funext q
    by_cases hq : q ∈ di
    · obtain ⟨l, hl, rfl⟩ := List.getElem_of_mem hq
      rw [tog_at hd hl]
      by_cases hlk : l = k
      · subst hlk
        rw [set_same, if_pos ⟨le_rfl, by omega⟩, hdrop, ← hw]
        cases s di[l] <;> cases s ctl[l + 1] <;> cases s di[l + 1] <;> cases (ctl.drop (l + 2)).all s <;> rfl
      · have hne' : di[l] ≠ di[k] := fun he => hlk ((hd.getElem_inj_iff).1 he)
        rw [set_other hne', tog_at hd hl, set_other hne', hall _ _ _ (List.getElem_mem _)]
        by_cases hlt : k ≤ l
        · have hiff : (k + 1 ≤ l ∧ l < ctl.length - 2) ↔ (k ≤ l ∧ l < ctl.length - 2) := by omega
          simp only [hiff]
        · rw [if_neg (by omega), if_neg (by omega)]
    · rw [tog_out hq hlen, set_other (ne_of_nm hq (List.getElem_mem _)), tog_out hq hlen,
        set_other (ne_of_nm hq (List.getElem_mem _))]

/-- The inner part of the network toggles the auxiliary qubits. -/
theorem inner (hd : di.Nodup) (hdis : ∀ q ∈ di, q ∉ ctl) (hlen : ctl.length - 2 ≤ di.length) (h3 : 3 ≤ ctl.length) (s : S) :
    exec (up ctl di (ctl.length - 3) ++ [.ccx (ctl.getD (ctl.length - 2) 0) (ctl.getD (ctl.length - 1) 0) (di.getD (ctl.length - 3) 0)] ++
      dn ctl di (ctl.length - 3)) s = tog ctl di 0 s := by
  apply nested hd hdis hlen _ (by omega)
  intro s
  show (G.ccx _ _ _).on s = _
  rw [ccx_on]
  have h1 : ctl.length - 2 < ctl.length := by omega
  have h2 : ctl.length - 1 < ctl.length := by omega
  have h4 : ctl.length - 3 < di.length := by omega
  have e1 : ctl.getD (ctl.length - 2) 0 = ctl[ctl.length - 2] := by simp [List.getD, h1]
  have e2 : ctl.getD (ctl.length - 1) 0 = ctl[ctl.length - 1] := by simp [List.getD, h2]
  have e3 : di.getD (ctl.length - 3) 0 = di[ctl.length - 3] := by simp [List.getD, h4]
  rw [e1, e2, e3]
  have hdrop : (ctl.drop (ctl.length - 3 + 1)).all s = (s ctl[ctl.length - 2] && s ctl[ctl.length - 1]) := by
    rw [show ctl.length - 3 + 1 = ctl.length - 2 by omega, List.drop_eq_getElem_cons h1, List.all_cons]
    rw [show ctl.length - 2 + 1 = ctl.length - 1 by omega, List.drop_eq_getElem_cons h2, List.all_cons,
      List.drop_of_length_le (by omega)]
    simp
  funext q
  by_cases hq : q ∈ di
  · obtain ⟨l, hl, rfl⟩ := List.getElem_of_mem hq
    rw [tog_at hd hl]
    by_cases hlk : l = ctl.length - 3
    · subst hlk
      rw [set_same, if_pos ⟨le_rfl, by omega⟩, hdrop]
    · rw [set_other (fun he => hlk ((hd.getElem_inj_iff).1 he)), if_neg (by omega)]
  · rw [tog_out hq hlen, set_other (ne_of_nm hq (List.getElem_mem _))]

theorem tog_tog (hd : di.Nodup) (hdis : ∀ q ∈ di, q ∉ ctl) (hlen : ctl.length - 2 ≤ di.length) (s : S) (t : Nat) (w : Bool)
    (ht : t ∉ ctl) (htd : t ∉ di) : tog ctl di 0 (set (tog ctl di 0 s) t w) = set s t w := by
  have hall : ∀ l, (ctl.drop l).all (set (tog ctl di 0 s) t w) = (ctl.drop l).all s := fun l =>
    all_congr_on fun q hq => by
      have hq := List.mem_of_mem_drop hq
      rw [set_other (ne_of_nm ht hq).symm, tog_out (fun hm => hdis _ hm hq) hlen]
  funext q
  by_cases hq : q ∈ di
  · obtain ⟨l, hl, rfl⟩ := List.getElem_of_mem hq
    have hne : di[l] ≠ t := fun he => htd (he ▸ List.getElem_mem _)
    rw [tog_at hd hl, set_other hne, set_other hne, tog_at hd hl, hall]
    split
    · rw [Bool.xor_assoc, Bool.xor_self, Bool.xor_false]
    · rfl
  · rw [tog_out hq hlen]
    by_cases hqt : q = t
    · rw [hqt, set_same, set_same]
    · rw [set_other hqt, set_other hqt, tog_out hq hlen]

/-- **The whole network** flips the target when all controls are set and restores the auxiliary qubits. -/
theorem net (hd : di.Nodup) (hdis : ∀ q ∈ di, q ∉ ctl) (hlen : ctl.length - 2 ≤ di.length) (h3 : 3 ≤ ctl.length) {t : Nat}
    (ht : t ∉ ctl) (htd : t ∉ di) {T : G} {W : List G} (hT : T = .ccx (ctl.getD 0 0) (di.getD 0 0) t)
    (hW : ∀ s, exec W s = tog ctl di 0 s) (s : S) : exec ([T] ++ W ++ [T] ++ W) s = cnot ctl t s := by
  rw [exec_append, exec_append, exec_append, hW, hW]
  show tog ctl di 0 (T.on (tog ctl di 0 (T.on s))) = _
  have h0 : 0 < ctl.length := by omega
  have h0d : 0 < di.length := by omega
  have e1 : ctl.getD 0 0 = ctl[0] := by simp [List.getD, h0]
  have e2 : di.getD 0 0 = di[0] := by simp [List.getD, h0d]
  have hct : ctl[0] ≠ t := fun he => ht (he ▸ List.getElem_mem _)
  have hdt : di[0] ≠ t := fun he => htd (he ▸ List.getElem_mem _)
  rw [hT, e1, e2, ccx_on, ccx_on]
  generalize hw : xor (s t) (s ctl[0] && s di[0]) = w
  have hall : ∀ l, (ctl.drop l).all (set s t w) = (ctl.drop l).all s := fun l =>
    all_congr_on fun q hq => set_other (fun he => ht (he ▸ List.mem_of_mem_drop hq))
  rw [tog_out htd hlen, tog_out (fun hm => hdis _ hm (List.getElem_mem _)) hlen, tog_at hd h0d, if_pos ⟨le_rfl, by omega⟩,
    set_same, set_other hct, set_other hdt, hall, tog_tog hd hdis hlen _ _ _ ht htd, set_set]
  have hc : ctl.all s = (s ctl[0] && (ctl.drop 1).all s) := by
    conv_lhs => rw [← List.drop_zero (l := ctl), List.drop_eq_getElem_cons h0, List.all_cons]
  unfold cnot
  rw [hc, ← hw, flip_if]
  simp only [Nat.zero_add]
  congr 1
  cases s ctl[0] <;> cases s di[0] <;> cases (ctl.drop 1).all s <;> cases s t <;> rfl
end

/-- `b'` extends `b` by the gates `gs` and takes no qubit into the clean list. -/
structure Em (b b' : B) (gs : List G) : Prop where
  par : Par b b'
  wf : WF b'
  sub : ∀ q ∈ b'.clean, q ∈ b.clean
  gates : b'.gates = b.gates ++ gs

theorem Em.trans {a b c : B} {g h : List G} (x : Em a b g) (y : Em b c h) : Em a c (g ++ h) :=
  ⟨x.par.trans y.par, y.wf, fun q hq => x.sub q (y.sub q hq), by rw [y.gates, x.gates, List.append_assoc]⟩

theorem em_ccx {b : B} (h : WF b) (c1 c2 t : Nat) : Em b (addCcx b c1 c2 t false) [.ccx c1 c2 t] := by
  have h' : WF (emit b (.ccx c1 c2 t)) := h
  obtain ⟨m1, m2, m3, m4⟩ := marks_ok h' c1 c2 t
  refine ⟨(Par.trans ⟨rfl, rfl, rfl⟩ m2).trans (toDirty_par _ _), m1.toDirty t, fun q hq => m4 q (mem_toDirty m1 hq).1, ?_⟩
  show (toDirty _ _).gates = _
  rw [toDirty_gates, m3]; rfl

theorem ccx_not_clean {b : B} (h : WF b) (c1 c2 t : Nat) : t ∉ (addCcx b c1 c2 t false).clean := fun hq =>
  (mem_toDirty (marks_ok (b := emit b (.ccx c1 c2 t)) h c1 c2 t).1 hq).2 rfl

theorem em_up (ctl di : List Nat) : ∀ k b, WF b → ∃ b', loop (fun i => chainStep ctl di (i + 1)) k b = some b' ∧ Em b b' (up ctl di k)
  | 0, b, h => ⟨b, rfl, Par.refl _, h, fun q hq => hq, by simp [up]⟩
  | k + 1, b, h => by
    obtain ⟨b1, e, h1⟩ := em_up ctl di k b h
    refine ⟨addCcx b1 (ctl.getD (k + 1) 0) (di.getD (k + 1) 0) (di.getD (k + 1 - 1) 0) false, ?_, ?_⟩
    · rw [loop, e]; rfl
    · rw [up_succ]
      exact h1.trans (em_ccx h1.wf _ _ _)

theorem em_dn (ctl di : List Nat) : ∀ k b, WF b → ∃ b', loopDown (chainStep ctl di) 1 k b = some b' ∧ Em b b' (dn ctl di k)
  | 0, b, h => ⟨b, rfl, Par.refl _, h, fun q hq => hq, by simp [dn]⟩
  | k + 1, b, h => by
    have h1 := em_ccx h (ctl.getD (k + 1) 0) (di.getD (k + 1) 0) (di.getD (k + 1 - 1) 0)
    obtain ⟨b2, e, h2⟩ := em_dn ctl di k _ h1.wf
    refine ⟨b2, ?_, h1.trans h2⟩
    rw [loopDown, Nat.add_comm 1 k]
    exact e

theorem up_classical {ctl di : List Nat} {Q : Nat} (hcq : ∀ c ∈ ctl, c < Q) (hdq : ∀ c ∈ di, c < Q) (hd : di.Nodup)
    (hdis : ∀ q ∈ di, q ∉ ctl) (hlen : ctl.length - 2 ≤ di.length) :
    ∀ i, 1 ≤ i → i + 2 < ctl.length → (st ctl di i).Classical Q := by
  intro i h1 h2
  have a1 : i < ctl.length := by omega
  have a2 : i < di.length := by omega
  have a3 : i - 1 < di.length := by omega
  have e1 : ctl.getD i 0 = ctl[i] := by simp [List.getD, a1]
  have e2 : di.getD i 0 = di[i] := by simp [List.getD, a2]
  have e3 : di.getD (i - 1) 0 = di[i - 1] := by simp [List.getD, a3]
  unfold st
  rw [e1, e2, e3]
  refine ⟨fun he => hdis _ (List.getElem_mem a3) (he ▸ List.getElem_mem a1), fun he => ?_,
    fun he => hdis _ (List.getElem_mem a2) (he ▸ List.getElem_mem a1), hcq _ (List.getElem_mem a1), hdq _ (List.getElem_mem a2),
    hdq _ (List.getElem_mem a3)⟩
  have := (hd.getElem_inj_iff).1 he
  omega

theorem mem_dn (ctl di : List Nat) : ∀ k g, g ∈ dn ctl di k → ∃ i, 1 ≤ i ∧ i ≤ k ∧ g = st ctl di i
  | 0, g, h => by simp [dn] at h
  | k + 1, g, h => by
    rcases List.mem_cons.1 h with rfl | h
    · exact ⟨k + 1, by omega, le_rfl, rfl⟩
    · obtain ⟨i, h1, h2, h3⟩ := mem_dn ctl di k g h
      exact ⟨i, h1, by omega, h3⟩

theorem dirtyNet_adds {b : B} (h : WF b) {ctl di : List Nat} {t : Nat} (hc : ctl.Nodup) (hd : di.Nodup) (hdis : ∀ q ∈ di, q ∉ ctl)
    (hlen : ctl.length - 2 ≤ di.length) (h3 : 3 ≤ ctl.length) (ht : t ∉ ctl) (htd : t ∉ di)
    (hcq : ∀ c ∈ ctl, c < 4 * b.n + 2) (hdq : ∀ c ∈ di, c < 4 * b.n + 2) (htq : t < 4 * b.n + 2) :
    ∃ b', dirtyNet b ctl di t = some b' ∧ Adds b b' (fun _ => True) (cnot ctl t) (fun q => q ∈ b.clean ∧ q ≠ t) := by
  have k1 := em_ccx h (ctl.getD 0 0) (di.getD 0 0) t
  have n1 := ccx_not_clean h (ctl.getD 0 0) (di.getD 0 0) t
  obtain ⟨b2, e2, k2⟩ := em_up ctl di (ctl.length - 3) _ k1.wf
  have k3 := em_ccx k2.wf (ctl.getD (ctl.length - 2) 0) (ctl.getD (ctl.length - 1) 0) (di.getD (ctl.length - 3) 0)
  obtain ⟨b4, e4, k4⟩ := em_dn ctl di (ctl.length - 3) _ k3.wf
  have k5 := em_ccx k4.wf (ctl.getD 0 0) (di.getD 0 0) t
  obtain ⟨b6, e6, k6⟩ := em_up ctl di (ctl.length - 3) _ k5.wf
  have k7 := em_ccx k6.wf (ctl.getD (ctl.length - 2) 0) (ctl.getD (ctl.length - 1) 0) (di.getD (ctl.length - 3) 0)
  obtain ⟨b8, e8, k8⟩ := em_dn ctl di (ctl.length - 3) _ k7.wf
  have hin := inner hd hdis hlen h3
  refine ⟨b8, ?_, ?_⟩
  · unfold dirtyNet
    simp only
    rw [if_neg (by omega)]
    simp only [e2, e4, e6, e8, Option.bind_eq_bind, Option.bind_some]
  generalize hT : G.ccx (ctl.getD 0 0) (di.getD 0 0) t = T at *
  generalize hM : G.ccx (ctl.getD (ctl.length - 2) 0) (ctl.getD (ctl.length - 1) 0) (di.getD (ctl.length - 3) 0) = M at *
  have hW := (((k2.trans k3).trans k4).trans (k5.trans ((k6.trans k7).trans k8)))
  have hall := k1.trans hW
  refine ⟨hall.par, hall.wf, fun q hq => ⟨hall.sub q hq, ?_⟩, _, hall.gates, ?_, ?_⟩
  · rintro rfl
    exact n1 (hW.sub _ hq)
  · have a0 : 0 < ctl.length := by omega
    have a1 : ctl.length - 2 < ctl.length := by omega
    have a2 : ctl.length - 1 < ctl.length := by omega
    have a3 : ctl.length - 3 < di.length := by omega
    have a4 : 0 < di.length := by omega
    have cT : T.Classical (4 * b.n + 2) := by
      rw [← hT, show ctl.getD 0 0 = ctl[0] by simp [List.getD, a0], show di.getD 0 0 = di[0] by simp [List.getD, a4]]
      exact ⟨(ne_of_nm ht (List.getElem_mem _)).symm, (ne_of_nm htd (List.getElem_mem _)).symm,
        fun he => hdis _ (List.getElem_mem a4) (he ▸ List.getElem_mem a0), hcq _ (List.getElem_mem _), hdq _ (List.getElem_mem _), htq⟩
    have cM : M.Classical (4 * b.n + 2) := by
      rw [← hM, show di.getD (ctl.length - 3) 0 = di[ctl.length - 3] by simp [List.getD, a3],
        show ctl.getD (ctl.length - 2) 0 = ctl[ctl.length - 2] by simp [List.getD, a1],
        show ctl.getD (ctl.length - 1) 0 = ctl[ctl.length - 1] by simp [List.getD, a2]]
      refine ⟨fun he => hdis _ (List.getElem_mem a3) (he ▸ List.getElem_mem a1), fun he => hdis _ (List.getElem_mem a3) (he ▸ List.getElem_mem a2),
        fun he => ?_, hcq _ (List.getElem_mem _), hcq _ (List.getElem_mem _), hdq _ (List.getElem_mem _)⟩
      have := (hc.getElem_inj_iff).1 he
      omega
    have cU : ∀ g ∈ up ctl di (ctl.length - 3), g.Classical (4 * b.n + 2) := by
      intro g hg
      obtain ⟨i, hi, rfl⟩ := List.mem_map.1 hg
      rw [List.mem_range] at hi
      exact up_classical hcq hdq hd hdis hlen _ (by omega) (by omega)
    have cD : ∀ g ∈ dn ctl di (ctl.length - 3), g.Classical (4 * b.n + 2) := by
      intro g hg
      obtain ⟨i, h1, h2, rfl⟩ := mem_dn ctl di _ g hg
      exact up_classical hcq hdq hd hdis hlen _ h1 (by omega)
    intro g hg
    simp only [List.mem_append, List.mem_singleton] at hg
    rcases hg with rfl | ((hg | rfl) | hg) | rfl | ((hg | rfl) | hg)
    · exact cT
    · exact cU g hg
    · exact cM
    · exact cD g hg
    · exact cT
    · exact cU g hg
    · exact cM
    · exact cD g hg
  · intro s _ _
    have := net hd hdis hlen h3 ht htd hT.symm hin s
    rw [← this]
    congr 1
    simp only [List.append_assoc]

/-! ## `add_ck_not_circuit` -/

theorem ckNot_adds : ∀ (k : Nat) (b : B) (ctl : List Nat) (t : Nat) (own : Bool), ctl.length = k → WF b → ctl.Nodup → t ∉ ctl →
    (k ≤ 2 ∨ own = true ∧ 2 * k ≤ 4 * b.n + 3) → (∀ c ∈ ctl, c < 4 * b.n + 2) → t < 4 * b.n + 2 →
    ∃ b', ckNot b ctl t own = some b' ∧ Adds b b' (fun _ => True) (cnot ctl t) (fun q => q ∈ b.clean ∧ q ≠ t) := by
  intro k
  induction k with
  | zero =>
    intro b ctl t own hk h hc ht hown hcq htq
    obtain rfl := List.eq_nil_of_length_eq_zero hk
    refine ⟨addX b t, by rw [ckNot], ?_⟩
    refine (adds_emit h (.x t) t htq).mono (fun s _ _ => ⟨trivial, ?_⟩) (fun _ _ h => h)
    simp [G.on, cnot]
  | succ k ih =>
    intro b ctl t own hk h hc ht hown hcq htq
    match ctl, hk, hc, ht, hcq with
    | [c], _, hc, ht, hcq =>
      refine ⟨addCx b c t, by rw [ckNot], ?_⟩
      refine (adds_emit h (.cx c t) t ⟨fun e => ht (by simp [e]), hcq c (by simp), htq⟩).mono (fun s _ _ => ⟨trivial, ?_⟩) (fun _ _ h => h)
      simp [G.on, cnot]
    | [c1, c2], _, hc, ht, hcq =>
      refine ⟨addCcx b c1 c2 t false, by rw [ckNot], ?_⟩
      exact adds_ccx h ⟨fun e => ht (by simp [e]), fun e => ht (by simp [e]), fun e => by simp [e] at hc, hcq _ (by simp), hcq _ (by simp), htq⟩
    | c1 :: c2 :: c3 :: cs, hk, hc, ht, hcq =>
      obtain ⟨rfl, hn⟩ : own = true ∧ 2 * (k + 1) ≤ 4 * b.n + 3 := by
        rcases hown with h2 | h2
        · simp only [List.length_cons] at hk; omega
        · exact h2
      rw [ckNot]
      simp only [if_true]
      generalize hcl : (if b.useClean = true then b.clean else []) = cl
      have hclN : cl.Nodup := by
        rw [← hcl]; split
        · exact h.nodupC
        · exact List.nodup_nil
      have hclS : ∀ q ∈ cl, q ∈ b.clean := by
        rw [← hcl]; intro q hq; split at hq
        · exact hq
        · cases hq
      cases hav : avail cl (c1 :: c2 :: c3 :: cs) t with
      | cons anc rest =>
        have hm : anc ∈ avail cl (c1 :: c2 :: c3 :: cs) t := by rw [hav]; simp
        obtain ⟨m1, m2, m3⟩ := (mem_avail hclN).1 hm
        simp only [List.mem_cons, not_or] at m3
        have mc := hclS _ m1
        have hab : anc < 4 * b.n + 2 := h.lt (Or.inl mc)
        have hg : (G.ccx c1 c2 anc).Classical (4 * b.n + 2) := ⟨Ne.symm m3.1, Ne.symm m3.2.1, fun e => by simp [e] at hc, hcq _ (by simp),
          hcq _ (by simp), hab⟩
        have k1 := adds_ccx h hg
        have hlen : (c3 :: cs ++ [anc]).length = k := by simp at hk ⊢; omega
        have hnd : (c3 :: cs ++ [anc]).Nodup := by
          rw [List.nodup_append]
          refine ⟨(List.nodup_cons.1 (List.nodup_cons.1 hc).2).2, by simp, ?_⟩
          intro a ha b hb e
          rw [List.mem_singleton] at hb
          subst hb; subst e
          rcases List.mem_cons.1 ha with h1 | h1
          · exact m3.2.2.1 h1
          · exact m3.2.2.2 h1
        have htn : t ∉ c3 :: cs ++ [anc] := by
          intro hm
          rcases List.mem_append.1 hm with h1 | h1
          · exact ht (by simp only [List.mem_cons] at h1 ⊢; tauto)
          · rw [List.mem_singleton] at h1; exact m2 h1.symm
        obtain ⟨b2, e2, k2⟩ := ih (addCcx b c1 c2 anc false) (c3 :: cs ++ [anc]) t true hlen k1.wf hnd htn
          (Or.inr ⟨rfl, by rw [k1.par.2.1]; omega⟩)
          (fun c hc' => by
            rw [k1.par.2.1]
            rcases List.mem_append.1 hc' with h1 | h1
            · exact hcq c (by simp only [List.mem_cons] at h1 ⊢; tauto)
            · rw [List.mem_singleton] at h1; rw [h1]; exact hab) (by rw [k1.par.2.1]; exact htq)
        simp only [e2]
        refine ⟨_, rfl, ?_⟩
        have k3 := adds_ccx_clean k2.wf (c1 := c1) (c2 := c2) (t := anc) (by rw [k2.par.2.1, k1.par.2.1]; exact hg)
        have hanc : anc ∈ b.clean := mc
        have hz1 : ∀ s, Z b.clean s → Z (addCcx b c1 c2 anc false).clean (cnot [c1, c2] anc s) := by
          intro s hz q hq
          obtain ⟨q1, q2⟩ := k1.sub q hq
          unfold cnot
          split
          · rw [set_other q2]; exact hz q q1
          · exact hz q q1
        have hz2 : ∀ s, Z (addCcx b c1 c2 anc false).clean s → Z b2.clean (cnot (c3 :: cs ++ [anc]) t s) := by
          intro s hz q hq
          obtain ⟨q1, q2⟩ := k2.sub q hq
          unfold cnot
          split
          · rw [set_other q2]; exact hz q q1
          · exact hz q q1
        have hcomp := (k1.comp k2 (fun s _ hz => ⟨trivial, hz1 s hz⟩)).comp k3 (fun s _ hz => ⟨trivial, hz2 _ (hz1 s hz)⟩)
        refine hcomp.mono (fun s _ hz => ⟨trivial, ?_⟩) ?_
        · -- the computation
          have ha : s anc = false := hz anc hanc
          have hta : t ≠ anc := Ne.symm m2
          have hc1a : c1 ≠ anc := Ne.symm m3.1
          have hc2a : c2 ≠ anc := Ne.symm m3.2.1
          have hc1t : c1 ≠ t := fun e => ht (by simp [e])
          have hc2t : c2 ≠ t := fun e => ht (by simp [e])
          have e1 : cnot [c1, c2] anc s = set s anc (s c1 && s c2) := by
            unfold cnot
            rw [flip_if, ha]; simp
          rw [e1]
          have e3 : (c3 :: cs ++ [anc]).all (set s anc (s c1 && s c2)) = (c1 :: c2 :: c3 :: cs).all s := by
            rw [List.all_append]
            have : (c3 :: cs).all (set s anc (s c1 && s c2)) = (c3 :: cs).all s := all_congr_on fun q hq => by
              apply set_other
              rintro rfl
              rcases List.mem_cons.1 hq with h1 | h1
              · exact m3.2.2.1 h1
              · exact m3.2.2.2 h1
            rw [this]
            simp only [List.all_cons, List.all_nil, Bool.and_true, set_same]
            cases s c1 <;> cases s c2 <;> simp
          unfold cnot
          rw [e3, flip_if, flip_if, flip_if]
          funext q
          simp only [List.all_cons, List.all_nil, Bool.and_true]
          by_cases hq : q = anc
          · subst hq
            rw [set_same, set_other (Ne.symm hta), set_same, set_other hc1t, set_other hc1a, set_other hc2t, set_other hc2a,
              set_other (Ne.symm hta), ha, Bool.xor_self]
          · rw [set_other hq]
            by_cases hqt : q = t
            · subst hqt
              rw [set_same, set_same, set_other hta]
            · rw [set_other hqt, set_other hqt, set_other hq]
        · intro q hq hk'
          rcases hk' with h1 | h1
          · obtain ⟨q1, q2⟩ := k2.sub q h1
            exact ⟨(k1.sub q q1).1, q2⟩
          · subst h1; exact ⟨hanc, m2⟩
      | nil =>
        simp only
        generalize hdi : (if b.useClean = true then b.dirty else b.dirty ++ b.clean) = di
        have hdiN : di.Nodup := by
          rw [← hdi]; split
          · exact h.nodupD
          · exact (List.perm_append_comm.nodup_iff).1 h.nodup
        have hcount : 4 * b.n + 2 ≤ (avail di (c1 :: c2 :: c3 :: cs) t).length + (k + 1) + 1 := by
          have hperm := h.length_eq
          rw [List.length_range, List.length_append] at hperm
          have hl := avail_length di (c1 :: c2 :: c3 :: cs) t
          rw [hk] at hl
          by_cases hu : b.useClean = true
          · -- all clean qubits are among the controls and the target: count both lists together
            rw [if_pos hu] at hcl hdi
            subst hcl hdi
            have hsub : ∀ q ∈ b.clean, q ∈ t :: c1 :: c2 :: c3 :: cs := by
              intro q hq
              by_contra hn
              rw [List.mem_cons, not_or] at hn
              have : q ∈ avail b.clean (c1 :: c2 :: c3 :: cs) t := (mem_avail hclN).2 ⟨hq, hn.1, hn.2⟩
              rw [hav] at this
              cases this
            -- the qubits outside t and ctl are available dirty ones
            have hsub2 : ∀ q ∈ b.clean ++ b.dirty, q ∈ (avail b.dirty (c1 :: c2 :: c3 :: cs) t) ++ (t :: c1 :: c2 :: c3 :: cs) := by
              intro q hq
              rw [List.mem_append]
              rcases List.mem_append.1 hq with h1 | h1
              · exact Or.inr (hsub q h1)
              · by_cases hin : q ∈ t :: c1 :: c2 :: c3 :: cs
                · exact Or.inr hin
                · rw [List.mem_cons, not_or] at hin
                  exact Or.inl ((mem_avail hdiN).2 ⟨h1, hin.1, hin.2⟩)
            have := (h.nodup.subperm (fun q hq => hsub2 q hq)).length_le
            rw [List.length_append, List.length_append, List.length_cons, hk] at this
            omega
          · rw [if_neg hu] at hdi
            subst hdi
            rw [List.length_append] at hl
            omega
        refine dirtyNet_adds h hc (avail_nodup hdiN _ _) (fun q hq => ((mem_avail hdiN).1 hq).2.2) ?_ ?_ ht ?_ hcq ?_ htq
        · rw [hk]; omega
        · simp
        · intro hm
          exact ((mem_avail hdiN).1 hm).2.1 rfl
        · intro c hc'
          have hm := ((mem_avail hdiN).1 hc').1
          rw [← hdi] at hm
          split at hm
          · exact h.lt (Or.inr hm)
          · rcases List.mem_append.1 hm with h1 | h1
            · exact h.lt (Or.inr h1)
            · exact h.lt (Or.inl h1)

end QDD.Bench
