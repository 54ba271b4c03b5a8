import Verif.Conc.Lookup
import Mathlib.Data.List.Basic
import Mathlib.Data.List.Pairwise
import Mathlib.Tactic.SplitIfs
import Mathlib.Tactic.ByContra
/-!
# C30: `lookup` is atomic under the bucket lock
-/
set_option linter.unusedVariables false
set_option linter.unusedSimpArgs false
set_option linter.unusedSectionVars false

namespace QDD.Props
open QDD.Lookup
variable {N : Type} [TNode N] {hash : N → Nat}

namespace LK

/-- The node a thread has taken and neither linked nor returned, with what it wrote into it. -/
def owned : Pc N → Option (Nat × N)
  | .acq nd p | .head nd p | .put nd p | .cmp nd p _ | .prev nd p _ | .link0 nd p | .link1 nd p _ | .link2 nd p
  | .link3 nd p _ | .link4 nd p | .give nd p _ => some (p, nd)
  | _ => none

/-- The bucket whose lock a thread holds. -/
def holds (hash : N → Nat) : Pc N → Option Bkt
  | .head nd _ | .put nd _ | .cmp nd _ _ | .prev nd _ _ | .link0 nd _ | .link1 nd _ _ | .link2 nd _
  | .link3 nd _ _ | .link4 nd _ | .give nd _ _ | .rel nd _ => some (bkt hash nd)
  | _ => none

/-- The interned contents of one bucket. -/
def filt (hash : N → Nat) (reg : List (Nat × N)) (b : Bkt) : List (Nat × N) :=
  reg.filter fun x => decide (bkt hash x.2 = b)

/-- A null-terminated linked list. -/
def Linked (nx : Nat → Option Nat) : Option Nat → List Nat → Prop
  | none, [] => True
  | some a, b :: l => a = b ∧ Linked nx (nx a) l
  | _, _ => False

theorem Linked.frame {nx nx' : Nat → Option Nat} : ∀ {l : List Nat} {h : Option Nat}, Linked nx h l →
    (∀ p ∈ l, nx' p = nx p) → Linked nx' h l
  | [], none, _, _ => trivial
  | b :: l, some a, h, hf => by
    obtain ⟨rfl, h⟩ := h
    exact ⟨rfl, by rw [hf a (by simp)]; exact h.frame fun p hp => hf p (by simp [hp])⟩
  | [], some _, h, _ => h.elim
  | _ :: _, none, h, _ => h.elim

/-- What a thread knows at each point. -/
def PcOk (hash : N → Nat) (s : St N) (reg : List (Nat × N)) (spc : Spec.Pc N) : Pc N → Prop
  | .idle => spc = .idle
  | .get nd => spc = .called nd
  | .acq nd p => spc = .called nd ∧ s.previous p = none
  | .head nd p => spc = .called nd ∧ s.previous p = none
  | .put nd p => spc = .called nd ∧ s.previous p = none ∧ filt hash reg (bkt hash nd) = []
  | .cmp nd p c => spc = .called nd ∧ ∃ pre nc suf, filt hash reg (bkt hash nd) = pre ++ (c, nc) :: suf ∧
      ∀ x ∈ pre, TNode.eqv nd x.2 = false
  | .prev nd p c => spc = .called nd ∧ ∃ pre nc suf, filt hash reg (bkt hash nd) = pre ++ (c, nc) :: suf ∧
      (∀ x ∈ pre, TNode.eqv nd x.2 = false) ∧ TNode.eqv nd nc = false
  | .link0 nd p => spc = .called nd ∧ filt hash reg (bkt hash nd) ≠ [] ∧
      ∀ x ∈ filt hash reg (bkt hash nd), TNode.eqv nd x.2 = false
  | .link1 nd p h => spc = .called nd ∧ filt hash reg (bkt hash nd) ≠ [] ∧
      (∀ x ∈ filt hash reg (bkt hash nd), TNode.eqv nd x.2 = false) ∧ h = s.hd (bkt hash nd)
  | .link2 nd p => spc = .called nd ∧ filt hash reg (bkt hash nd) ≠ [] ∧
      (∀ x ∈ filt hash reg (bkt hash nd), TNode.eqv nd x.2 = false) ∧ s.previous p = s.hd (bkt hash nd)
  | .link3 nd p h => spc = .called nd ∧ filt hash reg (bkt hash nd) ≠ [] ∧
      (∀ x ∈ filt hash reg (bkt hash nd), TNode.eqv nd x.2 = false) ∧ s.previous p = s.hd (bkt hash nd) ∧
      h = s.hd (bkt hash nd)
  | .link4 nd p => spc = .called nd ∧ filt hash reg (bkt hash nd) ≠ [] ∧
      (∀ x ∈ filt hash reg (bkt hash nd), TNode.eqv nd x.2 = false) ∧ s.previous p = s.hd (bkt hash nd)
  | .give _ _ c => spc = .done c
  | .rel _ r => spc = .done r
  | .done r => spc = .done r

theorem PcOk.frame {s s' : St N} {reg reg' : List (Nat × N)} {spc : Spec.Pc N} {q : Pc N} (h : PcOk hash s reg spc q)
    (hp : ∀ p nd, owned q = some (p, nd) → s'.previous p = s.previous p)
    (hb : ∀ b, holds hash q = some b → filt hash reg' b = filt hash reg b ∧ s'.hd b = s.hd b) :
    PcOk hash s' reg' spc q := by
  cases q with
  | idle => exact h
  | get nd => exact h
  | acq nd p => exact ⟨h.1, by rw [hp p nd rfl]; exact h.2⟩
  | head nd p => exact ⟨h.1, by rw [hp p nd rfl]; exact h.2⟩
  | put nd p => exact ⟨h.1, by rw [hp p nd rfl]; exact h.2.1, by rw [(hb _ rfl).1]; exact h.2.2⟩
  | cmp nd p c => simp only [PcOk] at h ⊢; rw [(hb _ rfl).1]; exact h
  | prev nd p c => simp only [PcOk] at h ⊢; rw [(hb _ rfl).1]; exact h
  | link0 nd p => simp only [PcOk] at h ⊢; rw [(hb _ rfl).1]; exact h
  | link1 nd p hh => simp only [PcOk] at h ⊢; rw [(hb _ rfl).1, (hb _ rfl).2]; exact h
  | link2 nd p => simp only [PcOk] at h ⊢; rw [(hb _ rfl).1, (hb _ rfl).2, hp p nd rfl]; exact h
  | link3 nd p hh => simp only [PcOk] at h ⊢; rw [(hb _ rfl).1, (hb _ rfl).2, hp p nd rfl]; exact h
  | link4 nd p => simp only [PcOk] at h ⊢; rw [(hb _ rfl).1, (hb _ rfl).2, hp p nd rfl]; exact h
  | give nd p c => exact h
  | rel nd r => exact h
  | done r => exact h

/-- Memory against the dictionary; `F t` is the free list of thread `t`. -/
structure Mem (hash : N → Nat) (s : St N) (reg : List (Nat × N)) (F : Nat → List Nat) : Prop where
  regVal : ∀ x ∈ reg, s.val x.1 = some x.2
  regLt : ∀ x ∈ reg, x.1 < s.fresh
  regNd : (reg.map Prod.fst).Nodup
  links : ∀ b, Linked s.previous (s.hd b) ((filt hash reg b).map Prod.fst)
  freeLink : ∀ t, Linked s.next (s.avail t) (F t)
  freeNd : ∀ t, (F t).Nodup
  freeDisj : ∀ t t', t ≠ t' → ∀ p ∈ F t, p ∉ F t'
  freeLt : ∀ t, ∀ p ∈ F t, p < s.fresh
  freeReg : ∀ t, ∀ p ∈ F t, ∀ x ∈ reg, x.1 ≠ p
  freePrev : ∀ t, ∀ p ∈ F t, s.previous p = none

/-- One thread's node is private. -/
structure Own (s : St N) (reg : List (Nat × N)) (F : Nat → List Nat) (p : Nat) (nd : N) : Prop where
  lt : p < s.fresh
  nreg : ∀ x ∈ reg, x.1 ≠ p
  nfree : ∀ t, p ∉ F t
  val : s.val p = some nd

structure Sim (hash : N → Nat) (s : St N) (σ : Spec.St N) (F : Nat → List Nat) : Prop where
  mem : Mem hash s σ.reg F
  own : ∀ t p nd, owned (s.pc t) = some (p, nd) → Own s σ.reg F p nd
  ownDisj : ∀ t t' p nd nd', t ≠ t' → owned (s.pc t) = some (p, nd) → owned (s.pc t') ≠ some (p, nd')
  lock : ∀ t b, holds hash (s.pc t) = some b → s.locked b = true
  lockUniq : ∀ t t' b, t ≠ t' → holds hash (s.pc t) = some b → holds hash (s.pc t') ≠ some b
  lockHeld : ∀ b, s.locked b = true → ∃ t, holds hash (s.pc t) = some b
  pcs : ∀ t, PcOk hash s σ.reg (σ.pc t) (s.pc t)

theorem upd_self {α : Type} (f : Nat → α) (t : Nat) : Function.update f t (f t) = f := Function.update_eq_self t f

/-- A step of `t` that changes nothing but its control point (keeping node and lock) and, in the dictionary,
at most its own control point. -/
theorem Sim.go {s : St N} {σ : Spec.St N} {F : Nat → List Nat} (h : Sim hash s σ F) (t : Nat) (q : Pc N) (r : Spec.Pc N)
    (ho : owned q = owned (s.pc t)) (hh : holds hash q = holds hash (s.pc t)) (hq : PcOk hash s σ.reg r q) :
    Sim hash (s.go t q) { σ with pc := Function.update σ.pc t r } F := by
  have eo : ∀ u, owned ((s.go t q).pc u) = owned (s.pc u) := by
    intro u; simp only [St.go]
    rcases eq_or_ne u t with rfl | hne
    · rw [Function.update_self, ho]
    · rw [Function.update_of_ne hne]
  have eh : ∀ u, holds hash ((s.go t q).pc u) = holds hash (s.pc u) := by
    intro u; simp only [St.go]
    rcases eq_or_ne u t with rfl | hne
    · rw [Function.update_self, hh]
    · rw [Function.update_of_ne hne]
  refine ⟨⟨h.mem.regVal, h.mem.regLt, h.mem.regNd, h.mem.links, h.mem.freeLink, h.mem.freeNd, h.mem.freeDisj,
    h.mem.freeLt, h.mem.freeReg, h.mem.freePrev⟩, ?_, ?_, ?_, ?_, ?_, ?_⟩
  · intro u p nd hu; rw [eo] at hu
    have := h.own u p nd hu
    exact ⟨this.lt, this.nreg, this.nfree, this.val⟩
  · intro u u' p nd nd' hne hu; rw [eo] at hu ⊢; exact h.ownDisj u u' p nd nd' hne hu
  · intro u b hu; rw [eh] at hu; exact h.lock u b hu
  · intro u u' b hne hu; rw [eh] at hu ⊢; exact h.lockUniq u u' b hne hu
  · intro b hb; obtain ⟨u, hu⟩ := h.lockHeld b hb; exact ⟨u, by rw [eh]; exact hu⟩
  · intro u
    rcases eq_or_ne u t with rfl | hne
    · simp only [St.go, Function.update_self]
      exact PcOk.frame hq (fun _ _ _ => rfl) (fun _ _ => ⟨rfl, rfl⟩)
    · simp only [St.go, Function.update_of_ne hne]
      exact PcOk.frame (h.pcs u) (fun _ _ _ => rfl) (fun _ _ => ⟨rfl, rfl⟩)

/-- As `Sim.go`, the dictionary unchanged. -/
theorem Sim.go' {s : St N} {σ : Spec.St N} {F : Nat → List Nat} (h : Sim hash s σ F) (t : Nat) (q : Pc N)
    (ho : owned q = owned (s.pc t)) (hh : holds hash q = holds hash (s.pc t)) (hq : PcOk hash s σ.reg (σ.pc t) q) :
    Sim hash (s.go t q) σ F := by
  have := h.go t q (σ.pc t) ho hh hq
  rwa [upd_self] at this

theorem filt_cons (reg : List (Nat × N)) (p : Nat) (nd : N) (b : Bkt) :
    filt hash ((p, nd) :: reg) b = if bkt hash nd = b then (p, nd) :: filt hash reg b else filt hash reg b := by
  unfold filt; rw [List.filter_cons]; simp

theorem mem_filt {reg : List (Nat × N)} {b : Bkt} {x : Nat × N} : x ∈ filt hash reg b ↔ x ∈ reg ∧ bkt hash x.2 = b := by
  unfold filt; simp

/-- Nothing in the bucket matches: the dictionary has no such content. -/
theorem find_none {reg : List (Nat × N)} {nd : N}
    (h : ∀ x ∈ filt hash reg (bkt hash nd), TNode.eqv nd x.2 = false) : Spec.find hash reg nd = none := by
  unfold Spec.find
  rw [List.find?_eq_none]
  intro x hx hm
  simp only [Bool.and_eq_true, decide_eq_true_eq] at hm
  rw [h x (mem_filt.mpr ⟨hx, hm.1⟩)] at hm
  exact absurd hm.2 (by decide)

theorem find_some {reg : List (Nat × N)} {nd : N} {pre suf : List (Nat × N)} {y : Nat × N}
    (hf : filt hash reg (bkt hash nd) = pre ++ y :: suf) (hpre : ∀ x ∈ pre, TNode.eqv nd x.2 = false)
    (hy : TNode.eqv nd y.2 = true) : Spec.find hash reg nd = some y := by
  have key : Spec.find hash reg nd = (filt hash reg (bkt hash nd)).find? fun x => TNode.eqv nd x.2 := by
    unfold Spec.find filt
    rw [List.find?_filter]
    congr 1; funext a
    cases TNode.eqv nd a.2 <;> simp
  rw [key, hf, List.find?_append, List.find?_eq_none.mpr (by intro x hx; rw [hpre x hx]; decide)]
  simp [hy]

/-- Linking the thread's own node at the front of its bucket. -/
theorem Sim.link {s : St N} {σ : Spec.St N} {F : Nat → List Nat} (h : Sim hash s σ F) {t : Nat} {nd : N} {p : Nat}
    (ho : owned (s.pc t) = some (p, nd)) (hh : holds hash (s.pc t) = some (bkt hash nd))
    (hp : s.previous p = s.hd (bkt hash nd)) :
    Sim hash { s with hd := Function.update s.hd (bkt hash nd) (some p), pc := Function.update s.pc t (.rel nd p) }
      ⟨(p, nd) :: σ.reg, Function.update σ.pc t (.done p)⟩ F := by
  have O := h.own t p nd ho
  have eo : ∀ u q, owned (Function.update s.pc t (.rel nd p) u) = some q → u ≠ t ∧ owned (s.pc u) = some q := by
    intro u q hu
    rcases eq_or_ne u t with rfl | hne
    · rw [Function.update_self] at hu; cases hu
    · rw [Function.update_of_ne hne] at hu; exact ⟨hne, hu⟩
  have eh : ∀ u, holds hash (Function.update s.pc t (.rel nd p) u) = holds hash (s.pc u) := by
    intro u
    rcases eq_or_ne u t with rfl | hne
    · rw [Function.update_self, hh]; rfl
    · rw [Function.update_of_ne hne]
  refine ⟨⟨?_, ?_, ?_, ?_, h.mem.freeLink, h.mem.freeNd, h.mem.freeDisj, h.mem.freeLt, ?_, h.mem.freePrev⟩,
    ?_, ?_, ?_, ?_, ?_, ?_⟩
  · intro x hx
    rcases List.mem_cons.mp hx with rfl | hx
    · exact O.val
    · exact h.mem.regVal x hx
  · intro x hx
    rcases List.mem_cons.mp hx with rfl | hx
    · exact O.lt
    · exact h.mem.regLt x hx
  · rw [List.map_cons, List.nodup_cons]
    refine ⟨?_, h.mem.regNd⟩
    intro hm
    obtain ⟨x, hx, hx'⟩ := List.mem_map.mp hm
    exact O.nreg x hx hx'
  · intro b
    show Linked s.previous (Function.update s.hd (bkt hash nd) (some p) b) _
    rw [filt_cons]
    by_cases hb : bkt hash nd = b
    · subst hb
      rw [if_pos rfl, Function.update_self]
      exact ⟨rfl, by rw [hp]; exact h.mem.links _⟩
    · rw [if_neg hb, Function.update_of_ne (Ne.symm hb)]
      exact h.mem.links b
  · intro u q hq x hx
    rcases List.mem_cons.mp hx with rfl | hx
    · rintro rfl; exact O.nfree u hq
    · exact h.mem.freeReg u q hq x hx
  · intro u q nd' hu
    obtain ⟨hne, hu⟩ := eo u _ hu
    have O' := h.own u q nd' hu
    refine ⟨O'.lt, ?_, O'.nfree, O'.val⟩
    intro x hx
    rcases List.mem_cons.mp hx with rfl | hx
    · rintro rfl; exact h.ownDisj u t p nd' nd hne hu ho
    · exact O'.nreg x hx
  · intro u u' q n1 n2 hne hu hu'
    obtain ⟨h1, hu⟩ := eo u _ hu
    obtain ⟨h2, hu'⟩ := eo u' _ hu'
    exact h.ownDisj u u' q n1 n2 hne hu hu'
  · intro u b hu; exact h.lock u b (by rw [← eh u]; exact hu)
  · intro u u' b hne hu hu'
    exact h.lockUniq u u' b hne (by rw [← eh u]; exact hu) (by rw [← eh u']; exact hu')
  · intro b hb; obtain ⟨u, hu⟩ := h.lockHeld b hb; exact ⟨u, by rw [← hu]; exact eh u⟩
  · intro u
    rcases eq_or_ne u t with rfl | hne
    · simp only [Function.update_self]; rfl
    · simp only [Function.update_of_ne hne]
      refine PcOk.frame (h.pcs u) (fun _ _ _ => rfl) (fun b hb => ?_)
      have : bkt hash nd ≠ b := by rintro rfl; exact h.lockUniq t u _ (Ne.symm hne) hh hb
      exact ⟨by rw [filt_cons, if_neg this], by show Function.update s.hd _ _ _ = _; rw [Function.update_of_ne (Ne.symm this)]⟩

theorem linked_head {nx : Nat → Option Nat} {l : List Nat} (h : Linked nx none l) : l = [] := by
  cases l with
  | nil => rfl
  | cons a l => exact h.elim

theorem linked_suffix {nx : Nat → Option Nat} : ∀ {pre : List Nat} {h : Option Nat} {c : Nat} {suf : List Nat},
    Linked nx h (pre ++ c :: suf) → Linked nx (nx c) suf
  | [], some a, c, suf, h => by obtain ⟨rfl, h⟩ := h; exact h
  | b :: pre, some a, c, suf, h => linked_suffix h.2
  | [], none, _, _, h => h.elim
  | _ :: _, none, _, _, h => h.elim

/-- Every step of the implementation is matched by the dictionary. -/
theorem sim_step {s s' : St N} {σ : Spec.St N} {F : Nat → List Nat} {e : Option (Ev N)} (h : Sim hash s σ F)
    (st : Step hash s e s') :
    ∃ σ' F', Sim hash s' σ' F' ∧ ((e = none ∧ σ' = σ) ∨ Spec.Step hash σ e σ') := by
  cases st with
  | @call t nd hpc =>
    have hp := h.pcs t; rw [hpc] at hp
    exact ⟨_, F, h.go t _ (.called nd) (by rw [hpc]; rfl) (by rw [hpc]; rfl) rfl, Or.inr (Spec.Step.call hp)⟩
  | @getOld t nd p hpc hav =>
    have hp := h.pcs t; rw [hpc] at hp
    have hl := h.mem.freeLink t
    rw [hav] at hl
    obtain ⟨rest, hF⟩ : ∃ rest, F t = p :: rest := by
      cases hFt : F t with
      | nil => rw [hFt] at hl; exact hl.elim
      | cons a l => rw [hFt] at hl; exact ⟨l, by rw [hl.1]⟩
    rw [hF] at hl
    have hpF : p ∈ F t := by rw [hF]; simp
    have hnd := h.mem.freeNd t; rw [hF, List.nodup_cons] at hnd
    have hother : ∀ u, u ≠ t → p ∉ F u := fun u hu => h.mem.freeDisj t u (Ne.symm hu) p hpF
    have hsub : ∀ u q, q ∈ Function.update F t rest u → q ∈ F u ∧ q ≠ p := by
      intro u q hq
      rcases eq_or_ne u t with rfl | hne
      · rw [Function.update_self] at hq
        exact ⟨by rw [hF]; simp [hq], by rintro rfl; exact hnd.1 hq⟩
      · rw [Function.update_of_ne hne] at hq
        exact ⟨hq, by rintro rfl; exact hother u hne hq⟩
    have eo : ∀ u q, owned (Function.update s.pc t (.acq nd p) u) = some q →
        (u = t ∧ q = (p, nd)) ∨ (u ≠ t ∧ owned (s.pc u) = some q) := by
      intro u q hu
      rcases eq_or_ne u t with rfl | hne
      · rw [Function.update_self] at hu; left; exact ⟨rfl, (Option.some.inj hu).symm⟩
      · rw [Function.update_of_ne hne] at hu; exact Or.inr ⟨hne, hu⟩
    have eh : ∀ u, holds hash (Function.update s.pc t (.acq nd p) u) = holds hash (s.pc u) := by
      intro u
      rcases eq_or_ne u t with rfl | hne
      · rw [Function.update_self, hpc]; rfl
      · rw [Function.update_of_ne hne]
    have ownp : ∀ u q, owned (s.pc u) = some (p, q) → False := fun u q hu => (h.own u p q hu).nfree t hpF
    refine ⟨σ, Function.update F t rest, ⟨⟨?_, h.mem.regLt, h.mem.regNd, h.mem.links, ?_, ?_, ?_, ?_, ?_, ?_⟩, ?_, ?_, ?_, ?_, ?_, ?_⟩,
      Or.inl ⟨rfl, rfl⟩⟩
    · intro x hx
      show Function.update s.val p _ _ = _
      rw [Function.update_of_ne (h.mem.freeReg t p hpF x hx)]; exact h.mem.regVal x hx
    · intro u
      show Linked (Function.update s.next p none) (Function.update s.avail t (s.next p) u) (Function.update F t rest u)
      rcases eq_or_ne u t with rfl | hne
      · rw [Function.update_self, Function.update_self]
        exact hl.2.frame fun q hq => Function.update_of_ne (by rintro rfl; exact hnd.1 hq) _ _
      · rw [Function.update_of_ne hne, Function.update_of_ne hne]
        exact (h.mem.freeLink u).frame fun q hq => Function.update_of_ne (by rintro rfl; exact hother u hne hq) _ _
    · intro u
      rcases eq_or_ne u t with rfl | hne
      · rw [Function.update_self]; exact hnd.2
      · rw [Function.update_of_ne hne]; exact h.mem.freeNd u
    · intro u u' hne q hq hq'
      exact h.mem.freeDisj u u' hne q (hsub u q hq).1 (hsub u' q hq').1
    · intro u q hq; exact h.mem.freeLt u q (hsub u q hq).1
    · intro u q hq; exact h.mem.freeReg u q (hsub u q hq).1
    · intro u q hq; exact h.mem.freePrev u q (hsub u q hq).1
    · intro u q nd' hu
      rcases eo u _ hu with ⟨rfl, hx⟩ | ⟨hne, hx⟩
      · cases hx
        exact ⟨h.mem.freeLt u p hpF, h.mem.freeReg u p hpF, fun u' hu' => (hsub u' p hu').2 rfl, Function.update_self _ _ _⟩
      · have O := h.own u q nd' hx
        refine ⟨O.lt, O.nreg, fun u' hu' => O.nfree u' (hsub u' q hu').1, ?_⟩
        show Function.update s.val p _ _ = _
        rw [Function.update_of_ne (by rintro rfl; exact ownp u nd' hx)]; exact O.val
    · intro u u' q n1 n2 hne hu hu'
      rcases eo u _ hu with ⟨rfl, hx⟩ | ⟨h1, hx⟩ <;> rcases eo u' _ hu' with ⟨rfl, hy⟩ | ⟨h2, hy⟩
      · exact hne rfl
      · cases hx; exact ownp u' n2 hy
      · cases hy; exact ownp u n1 hx
      · exact h.ownDisj u u' q n1 n2 hne hx hy
    · intro u b hu; exact h.lock u b (by rw [← eh u]; exact hu)
    · intro u u' b hne hu hu'
      exact h.lockUniq u u' b hne (by rw [← eh u]; exact hu) (by rw [← eh u']; exact hu')
    · intro b hb; obtain ⟨u, hu⟩ := h.lockHeld b hb; exact ⟨u, by rw [← hu]; exact eh u⟩
    · intro u
      rcases eq_or_ne u t with rfl | hne
      · simp only [Function.update_self]; exact ⟨hp, h.mem.freePrev u p hpF⟩
      · simp only [Function.update_of_ne hne]
        exact PcOk.frame (h.pcs u) (fun _ _ _ => rfl) (fun _ _ => ⟨rfl, rfl⟩)
  | @getNew t nd hpc hav =>
    have hp := h.pcs t; rw [hpc] at hp
    have eo : ∀ u q, owned (Function.update s.pc t (.acq nd s.fresh) u) = some q →
        (u = t ∧ q = (s.fresh, nd)) ∨ (u ≠ t ∧ owned (s.pc u) = some q) := by
      intro u q hu
      rcases eq_or_ne u t with rfl | hne
      · rw [Function.update_self] at hu; left; exact ⟨rfl, (Option.some.inj hu).symm⟩
      · rw [Function.update_of_ne hne] at hu; exact Or.inr ⟨hne, hu⟩
    have eh : ∀ u, holds hash (Function.update s.pc t (.acq nd s.fresh) u) = holds hash (s.pc u) := by
      intro u
      rcases eq_or_ne u t with rfl | hne
      · rw [Function.update_self, hpc]; rfl
      · rw [Function.update_of_ne hne]
    have regne : ∀ x ∈ σ.reg, x.1 ≠ s.fresh := fun x hx => Nat.ne_of_lt (h.mem.regLt x hx)
    have freene : ∀ u, ∀ q ∈ F u, q ≠ s.fresh := fun u q hq => Nat.ne_of_lt (h.mem.freeLt u q hq)
    refine ⟨σ, F, ⟨⟨?_, ?_, h.mem.regNd, ?_, ?_, h.mem.freeNd, h.mem.freeDisj, ?_, h.mem.freeReg, ?_⟩, ?_, ?_, ?_, ?_, ?_, ?_⟩,
      Or.inl ⟨rfl, rfl⟩⟩
    · intro x hx
      show Function.update s.val s.fresh _ _ = _
      rw [Function.update_of_ne (regne x hx)]; exact h.mem.regVal x hx
    · intro x hx; exact Nat.lt_succ_of_lt (h.mem.regLt x hx)
    · intro b
      refine (h.mem.links b).frame fun q hq => ?_
      obtain ⟨x, hx, rfl⟩ := List.mem_map.mp hq
      exact Function.update_of_ne (regne x (mem_filt.mp hx).1) _ _
    · intro u
      exact (h.mem.freeLink u).frame fun q hq => Function.update_of_ne (freene u q hq) _ _
    · intro u q hq; exact Nat.lt_succ_of_lt (h.mem.freeLt u q hq)
    · intro u q hq
      show Function.update s.previous s.fresh _ _ = _
      rw [Function.update_of_ne (freene u q hq)]; exact h.mem.freePrev u q hq
    · intro u q nd' hu
      rcases eo u _ hu with ⟨rfl, hx⟩ | ⟨hne, hx⟩
      · cases hx
        exact ⟨Nat.lt_succ_self _, regne, fun u' hu' => freene u' _ hu' rfl, Function.update_self _ _ _⟩
      · have O := h.own u q nd' hx
        refine ⟨Nat.lt_succ_of_lt O.lt, O.nreg, O.nfree, ?_⟩
        show Function.update s.val s.fresh _ _ = _
        rw [Function.update_of_ne (Nat.ne_of_lt O.lt)]; exact O.val
    · intro u u' q n1 n2 hne hu hu'
      rcases eo u _ hu with ⟨rfl, hx⟩ | ⟨h1, hx⟩ <;> rcases eo u' _ hu' with ⟨rfl, hy⟩ | ⟨h2, hy⟩
      · exact hne rfl
      · cases hx; exact absurd (h.own u' _ n2 hy).lt (Nat.lt_irrefl _)
      · cases hy; exact absurd (h.own u _ n1 hx).lt (Nat.lt_irrefl _)
      · exact h.ownDisj u u' q n1 n2 hne hx hy
    · intro u b hu; exact h.lock u b (by rw [← eh u]; exact hu)
    · intro u u' b hne hu hu'
      exact h.lockUniq u u' b hne (by rw [← eh u]; exact hu) (by rw [← eh u']; exact hu')
    · intro b hb; obtain ⟨u, hu⟩ := h.lockHeld b hb; exact ⟨u, by rw [← hu]; exact eh u⟩
    · intro u
      rcases eq_or_ne u t with rfl | hne
      · simp only [Function.update_self]; exact ⟨hp, Function.update_self _ _ _⟩
      · simp only [Function.update_of_ne hne]
        refine PcOk.frame (h.pcs u) (fun q nd' hu => ?_) (fun _ _ => ⟨rfl, rfl⟩)
        exact Function.update_of_ne (Nat.ne_of_lt (h.own u q nd' hu).lt) _ _
  | @spin t nd p hpc hl => exact ⟨σ, F, h, Or.inl ⟨rfl, rfl⟩⟩
  | @acq t nd p hpc hl =>
    have hp := h.pcs t; rw [hpc] at hp
    have eo : ∀ u, owned (Function.update s.pc t (.head nd p) u) = owned (s.pc u) := by
      intro u
      rcases eq_or_ne u t with rfl | hne
      · rw [Function.update_self, hpc]; rfl
      · rw [Function.update_of_ne hne]
    have eh : ∀ u b, holds hash (Function.update s.pc t (.head nd p) u) = some b →
        (u = t ∧ b = bkt hash nd) ∨ (u ≠ t ∧ holds hash (s.pc u) = some b) := by
      intro u b hu
      rcases eq_or_ne u t with rfl | hne
      · rw [Function.update_self] at hu; left; exact ⟨rfl, (Option.some.inj hu).symm⟩
      · rw [Function.update_of_ne hne] at hu; exact Or.inr ⟨hne, hu⟩
    have noh : ∀ u, holds hash (s.pc u) = some (bkt hash nd) → False := by
      intro u hu; have := h.lock u _ hu; rw [hl] at this; cases this
    refine ⟨σ, F, ⟨⟨h.mem.regVal, h.mem.regLt, h.mem.regNd, h.mem.links, h.mem.freeLink, h.mem.freeNd, h.mem.freeDisj,
      h.mem.freeLt, h.mem.freeReg, h.mem.freePrev⟩, ?_, ?_, ?_, ?_, ?_, ?_⟩, Or.inl ⟨rfl, rfl⟩⟩
    · intro u q nd' hu
      have O := h.own u q nd' (by rw [← eo u]; exact hu)
      exact ⟨O.lt, O.nreg, O.nfree, O.val⟩
    · intro u u' q n1 n2 hne hu hu'
      exact h.ownDisj u u' q n1 n2 hne (by rw [← eo u]; exact hu) (by rw [← eo u']; exact hu')
    · intro u b hu
      show Function.update s.locked _ _ _ = _
      rcases eh u b hu with ⟨hx, hb⟩ | ⟨hne, hx⟩
      · rw [hb, Function.update_self]
      · rw [Function.update_of_ne (by intro hb; rw [hb] at hx; exact noh u hx)]; exact h.lock u b hx
    · intro u u' b hne hu hu'
      rcases eh u b hu with ⟨hx, hb⟩ | ⟨h1, hx⟩ <;> rcases eh u' b hu' with ⟨hy, hb'⟩ | ⟨h2, hy⟩
      · exact hne (hx.trans hy.symm)
      · rw [hb] at hy; exact noh u' hy
      · rw [hb'] at hx; exact noh u hx
      · exact h.lockUniq u u' b hne hx hy
    · intro b hb
      replace hb : Function.update s.locked (bkt hash nd) true b = true := hb
      by_cases hbb : b = bkt hash nd
      · subst hbb; exact ⟨t, by simp only [Function.update_self]; rfl⟩
      · rw [Function.update_of_ne hbb] at hb
        obtain ⟨u, hu⟩ := h.lockHeld b hb
        have hne : u ≠ t := by rintro rfl; rw [hpc] at hu; cases hu
        exact ⟨u, by simp only [Function.update_of_ne hne]; exact hu⟩
    · intro u
      rcases eq_or_ne u t with rfl | hne
      · simp only [Function.update_self]; exact hp
      · simp only [Function.update_of_ne hne]
        exact PcOk.frame (h.pcs u) (fun _ _ _ => rfl) (fun _ _ => ⟨rfl, rfl⟩)
  | @headNull t nd p hpc hd =>
    have hp := h.pcs t; rw [hpc] at hp
    refine ⟨σ, F, h.go' t _ (by rw [hpc]; rfl) (by rw [hpc]; rfl) ⟨hp.1, hp.2, ?_⟩, Or.inl ⟨rfl, rfl⟩⟩
    have := h.mem.links (bkt hash nd); rw [hd] at this
    exact List.map_eq_nil_iff.mp (linked_head this)
  | @headSome t nd p c hpc hd =>
    have hp := h.pcs t; rw [hpc] at hp
    have hl := h.mem.links (bkt hash nd); rw [hd] at hl
    refine ⟨σ, F, h.go' t _ (by rw [hpc]; rfl) (by rw [hpc]; rfl) ⟨hp.1, ?_⟩, Or.inl ⟨rfl, rfl⟩⟩
    cases hf : filt hash σ.reg (bkt hash nd) with
    | nil => rw [hf] at hl; exact hl.elim
    | cons x l => rw [hf] at hl; exact ⟨[], x.2, l, by rw [hl.1]; rfl, by simp⟩
  | @put t nd p hpc =>
    have hp := h.pcs t; rw [hpc] at hp
    have hl := h.mem.links (bkt hash nd); rw [hp.2.2] at hl
    have hd : s.hd (bkt hash nd) = none := by
      cases hx : s.hd (bkt hash nd) with
      | none => rfl
      | some a => rw [hx] at hl; exact hl.elim
    refine ⟨_, F, h.link (t := t) (by rw [hpc]; rfl) (by rw [hpc]; rfl) (by rw [hp.2.1, hd]), Or.inr (Spec.Step.new hp.1 ?_ ?_)⟩
    · exact find_none (by rw [hp.2.2]; simp)
    · exact (h.own t p nd (by rw [hpc]; rfl)).nreg
  | @cmpHit t nd p c nc hpc hv he hvar =>
    have hp := h.pcs t; rw [hpc] at hp
    obtain ⟨h1, pre, nc', suf, hf, hpre⟩ := hp
    have hm : (c, nc') ∈ σ.reg := (mem_filt.mp (by rw [hf]; simp)).1
    have hx := h.mem.regVal _ hm
    rw [hv] at hx; cases hx
    refine ⟨_, F, h.go t _ (.done c) (by rw [hpc]; rfl) (by rw [hpc]; rfl) rfl, Or.inr (Spec.Step.hit h1 (find_some hf hpre he))⟩
  | @cmpAssert t nd p c nc hpc hv he hvar =>
    have hp := h.pcs t; rw [hpc] at hp
    obtain ⟨h1, pre, nc', suf, hf, hpre⟩ := hp
    have hm := mem_filt.mp (show (c, nc') ∈ filt hash σ.reg (bkt hash nd) by rw [hf]; simp)
    have hx := h.mem.regVal _ hm.1
    rw [hv] at hx; cases hx
    exact absurd (congrArg Prod.fst hm.2) hvar
  | @cmpBad t nd p c hpc hv =>
    have hp := h.pcs t; rw [hpc] at hp
    obtain ⟨h1, pre, nc', suf, hf, hpre⟩ := hp
    have hm := mem_filt.mp (show (c, nc') ∈ filt hash σ.reg (bkt hash nd) by rw [hf]; simp)
    have hx := h.mem.regVal _ hm.1
    rw [hv] at hx; cases hx
  | @cmpMiss t nd p c nc hpc hv he =>
    have hp := h.pcs t; rw [hpc] at hp
    obtain ⟨h1, pre, nc', suf, hf, hpre⟩ := hp
    have hm := mem_filt.mp (show (c, nc') ∈ filt hash σ.reg (bkt hash nd) by rw [hf]; simp)
    have hx := h.mem.regVal _ hm.1
    rw [hv] at hx; cases hx
    exact ⟨σ, F, h.go' t _ (by rw [hpc]; rfl) (by rw [hpc]; rfl) ⟨h1, pre, _, suf, hf, hpre, he⟩, Or.inl ⟨rfl, rfl⟩⟩
  | @prevSome t nd p c c' hpc hv =>
    have hp := h.pcs t; rw [hpc] at hp
    obtain ⟨h1, pre, nc, suf, hf, hpre, he⟩ := hp
    have hl := h.mem.links (bkt hash nd); rw [hf, List.map_append, List.map_cons] at hl
    have hl := linked_suffix hl
    rw [hv] at hl
    refine ⟨σ, F, h.go' t _ (by rw [hpc]; rfl) (by rw [hpc]; rfl) ⟨h1, ?_⟩, Or.inl ⟨rfl, rfl⟩⟩
    cases suf with
    | nil => exact hl.elim
    | cons x suf =>
      refine ⟨pre ++ [(c, nc)], x.2, suf, ?_, ?_⟩
      · rw [hf, hl.1]; simp
      · intro y hy
        rcases List.mem_append.mp hy with hy | hy
        · exact hpre y hy
        · rw [List.mem_singleton.mp hy]; exact he
  | @prevNull t nd p c hpc hv =>
    have hp := h.pcs t; rw [hpc] at hp
    obtain ⟨h1, pre, nc, suf, hf, hpre, he⟩ := hp
    have hl := h.mem.links (bkt hash nd); rw [hf, List.map_append, List.map_cons] at hl
    have hl := linked_suffix hl
    rw [hv] at hl
    have hs := List.map_eq_nil_iff.mp (linked_head hl)
    subst hs
    refine ⟨σ, F, h.go' t _ (by rw [hpc]; rfl) (by rw [hpc]; rfl) ⟨h1, by rw [hf]; simp, ?_⟩, Or.inl ⟨rfl, rfl⟩⟩
    rw [hf]
    intro y hy
    rcases List.mem_append.mp hy with hy | hy
    · exact hpre y hy
    · rw [List.mem_singleton.mp hy]; exact he
  | @link0 t nd p hpc =>
    have hp := h.pcs t; rw [hpc] at hp
    exact ⟨σ, F, h.go' t _ (by rw [hpc]; rfl) (by rw [hpc]; rfl) ⟨hp.1, hp.2.1, hp.2.2, rfl⟩, Or.inl ⟨rfl, rfl⟩⟩
  | @link1 t nd p hh hpc =>
    have hp := h.pcs t; rw [hpc] at hp
    have O := h.own t p nd (by rw [hpc]; rfl)
    have eo : ∀ u, owned (Function.update s.pc t (.link2 nd p) u) = owned (s.pc u) := by
      intro u
      rcases eq_or_ne u t with rfl | hne
      · rw [Function.update_self, hpc]; rfl
      · rw [Function.update_of_ne hne]
    have eh : ∀ u, holds hash (Function.update s.pc t (.link2 nd p) u) = holds hash (s.pc u) := by
      intro u
      rcases eq_or_ne u t with rfl | hne
      · rw [Function.update_self, hpc]; rfl
      · rw [Function.update_of_ne hne]
    refine ⟨σ, F, ⟨⟨h.mem.regVal, h.mem.regLt, h.mem.regNd, ?_, h.mem.freeLink, h.mem.freeNd, h.mem.freeDisj,
      h.mem.freeLt, h.mem.freeReg, ?_⟩, ?_, ?_, ?_, ?_, ?_, ?_⟩, Or.inl ⟨rfl, rfl⟩⟩
    · intro b
      refine (h.mem.links b).frame fun q hq => ?_
      obtain ⟨x, hx, rfl⟩ := List.mem_map.mp hq
      exact Function.update_of_ne (O.nreg x (mem_filt.mp hx).1) _ _
    · intro u q hq
      show Function.update s.previous p _ _ = _
      rw [Function.update_of_ne (by rintro rfl; exact O.nfree u hq)]; exact h.mem.freePrev u q hq
    · intro u q nd' hu
      have O := h.own u q nd' (by rw [← eo u]; exact hu)
      exact ⟨O.lt, O.nreg, O.nfree, O.val⟩
    · intro u u' q n1 n2 hne hu hu'
      exact h.ownDisj u u' q n1 n2 hne (by rw [← eo u]; exact hu) (by rw [← eo u']; exact hu')
    · intro u b hu; exact h.lock u b (by rw [← eh u]; exact hu)
    · intro u u' b hne hu hu'
      exact h.lockUniq u u' b hne (by rw [← eh u]; exact hu) (by rw [← eh u']; exact hu')
    · intro b hb; obtain ⟨u, hu⟩ := h.lockHeld b hb; exact ⟨u, by rw [← hu]; exact eh u⟩
    · intro u
      rcases eq_or_ne u t with rfl | hne
      · simp only [Function.update_self]
        exact ⟨hp.1, hp.2.1, hp.2.2.1, by show Function.update s.previous p hh p = _; rw [Function.update_self]; exact hp.2.2.2⟩
      · simp only [Function.update_of_ne hne]
        refine PcOk.frame (h.pcs u) (fun q nd' hu => ?_) (fun _ _ => ⟨rfl, rfl⟩)
        refine Function.update_of_ne ?_ _ _
        rintro rfl
        exact h.ownDisj u t q nd' nd hne hu (by rw [hpc]; rfl)
  | @link2 t nd p hpc =>
    have hp := h.pcs t; rw [hpc] at hp
    exact ⟨σ, F, h.go' t _ (by rw [hpc]; rfl) (by rw [hpc]; rfl) ⟨hp.1, hp.2.1, hp.2.2.1, hp.2.2.2, rfl⟩, Or.inl ⟨rfl, rfl⟩⟩
  | @link3 t nd p hh hpc =>
    have hp := h.pcs t; rw [hpc] at hp
    have hl := h.mem.links (bkt hash nd)
    have hreg : ∃ x ∈ σ.reg, x.1 = hh := by
      rw [← hp.2.2.2.2] at hl
      cases hf : filt hash σ.reg (bkt hash nd) with
      | nil => rw [hf] at hl; exact hl.elim
      | cons x l =>
        rw [hf] at hl
        exact ⟨x, (mem_filt.mp (by rw [hf]; simp : x ∈ filt hash σ.reg (bkt hash nd))).1, hl.1.symm⟩
    have h' := h.go' t (.link4 nd p) (by rw [hpc]; rfl) (by rw [hpc]; rfl) ⟨hp.1, hp.2.1, hp.2.2.1, hp.2.2.2.1⟩
    refine ⟨σ, F, ⟨⟨h'.mem.regVal, h'.mem.regLt, h'.mem.regNd, h'.mem.links, ?_, h'.mem.freeNd, h'.mem.freeDisj,
      h'.mem.freeLt, h'.mem.freeReg, h'.mem.freePrev⟩, ?_, h'.ownDisj, h'.lock, h'.lockUniq, h'.lockHeld, ?_⟩, Or.inl ⟨rfl, rfl⟩⟩
    · intro u
      refine (h.mem.freeLink u).frame fun q hq => Function.update_of_ne ?_ _ _
      obtain ⟨x, hx, rfl⟩ := hreg
      exact (h.mem.freeReg u q hq x hx).symm
    · intro u q nd' hu
      have O := h'.own u q nd' hu
      exact ⟨O.lt, O.nreg, O.nfree, O.val⟩
    · intro u
      exact PcOk.frame (h'.pcs u) (fun _ _ _ => rfl) (fun _ _ => ⟨rfl, rfl⟩)
  | @link3Bad t nd p hpc =>
    have hp := h.pcs t; rw [hpc] at hp
    have hl := h.mem.links (bkt hash nd)
    rw [← hp.2.2.2.2] at hl
    exact absurd (List.map_eq_nil_iff.mp (linked_head hl)) hp.2.1
  | @link4 t nd p hpc =>
    have hp := h.pcs t; rw [hpc] at hp
    exact ⟨_, F, h.link (t := t) (by rw [hpc]; rfl) (by rw [hpc]; rfl) hp.2.2.2,
      Or.inr (Spec.Step.new hp.1 (find_none hp.2.2.1) (h.own t p nd (by rw [hpc]; rfl)).nreg)⟩
  | @give t nd p c hpc =>
    have hp := h.pcs t; rw [hpc] at hp
    have hown : owned (s.pc t) = some (p, nd) := by rw [hpc]; rfl
    have O := h.own t p nd hown
    have eo : ∀ u q, owned (Function.update s.pc t (.rel nd c) u) = some q → u ≠ t ∧ owned (s.pc u) = some q := by
      intro u q hu
      rcases eq_or_ne u t with rfl | hne
      · rw [Function.update_self] at hu; cases hu
      · rw [Function.update_of_ne hne] at hu; exact ⟨hne, hu⟩
    have eh : ∀ u, holds hash (Function.update s.pc t (.rel nd c) u) = holds hash (s.pc u) := by
      intro u
      rcases eq_or_ne u t with rfl | hne
      · rw [Function.update_self, hpc]; rfl
      · rw [Function.update_of_ne hne]
    have hin : ∀ u q, q ∈ Function.update F t (p :: F t) u → q = p ∧ u = t ∨ q ∈ F u := by
      intro u q hq
      rcases eq_or_ne u t with rfl | hne
      · rw [Function.update_self] at hq
        rcases List.mem_cons.mp hq with rfl | hq
        · exact Or.inl ⟨rfl, rfl⟩
        · exact Or.inr hq
      · rw [Function.update_of_ne hne] at hq; exact Or.inr hq
    have pne : ∀ u q, q ∈ F u → q ≠ p := by rintro u q hq rfl; exact O.nfree u hq
    refine ⟨σ, Function.update F t (p :: F t), ⟨⟨?_, h.mem.regLt, h.mem.regNd, ?_, ?_, ?_, ?_, ?_, ?_, ?_⟩, ?_, ?_, ?_, ?_, ?_, ?_⟩,
      Or.inl ⟨rfl, rfl⟩⟩
    · intro x hx
      show Function.update s.val p _ _ = _
      rw [Function.update_of_ne (O.nreg x hx)]; exact h.mem.regVal x hx
    · intro b
      refine (h.mem.links b).frame fun q hq => ?_
      obtain ⟨x, hx, rfl⟩ := List.mem_map.mp hq
      exact Function.update_of_ne (O.nreg x (mem_filt.mp hx).1) _ _
    · intro u
      show Linked (Function.update s.next p (s.avail t)) (Function.update s.avail t (some p) u) (Function.update F t (p :: F t) u)
      rcases eq_or_ne u t with rfl | hne
      · rw [Function.update_self, Function.update_self]
        refine ⟨rfl, ?_⟩
        rw [Function.update_self]
        exact (h.mem.freeLink u).frame fun q hq => Function.update_of_ne (pne u q hq) _ _
      · rw [Function.update_of_ne hne, Function.update_of_ne hne]
        exact (h.mem.freeLink u).frame fun q hq => Function.update_of_ne (pne u q hq) _ _
    · intro u
      rcases eq_or_ne u t with rfl | hne
      · rw [Function.update_self, List.nodup_cons]; exact ⟨O.nfree u, h.mem.freeNd u⟩
      · rw [Function.update_of_ne hne]; exact h.mem.freeNd u
    · intro u u' hne q hq hq'
      rcases hin u q hq with ⟨hx, hx'⟩ | hx <;> rcases hin u' _ hq' with ⟨hy, hy'⟩ | hy
      · exact hne (hx'.trans hy'.symm)
      · rw [hx] at hy; exact O.nfree u' hy
      · rw [hy] at hx; exact O.nfree u hx
      · exact h.mem.freeDisj u u' hne q hx hy
    · intro u q hq
      rcases hin u q hq with ⟨rfl, rfl⟩ | hq
      · exact O.lt
      · exact h.mem.freeLt u q hq
    · intro u q hq
      rcases hin u q hq with ⟨rfl, rfl⟩ | hq
      · exact O.nreg
      · exact h.mem.freeReg u q hq
    · intro u q hq
      show Function.update s.previous p _ _ = _
      rcases hin u q hq with ⟨rfl, rfl⟩ | hq
      · rw [Function.update_self]
      · rw [Function.update_of_ne (pne u q hq)]; exact h.mem.freePrev u q hq
    · intro u q nd' hu
      obtain ⟨hne, hx⟩ := eo u _ hu
      have O' := h.own u q nd' hx
      have hqp : q ≠ p := by intro hqp; rw [hqp] at hx; exact h.ownDisj u t p nd' nd hne hx hown
      refine ⟨O'.lt, O'.nreg, fun u' hu' => ?_, ?_⟩
      · rcases hin u' q hu' with ⟨h1, -⟩ | hu'
        · exact hqp h1
        · exact O'.nfree u' hu'
      · show Function.update s.val p _ _ = _
        rw [Function.update_of_ne hqp]; exact O'.val
    · intro u u' q n1 n2 hne hu hu'
      exact h.ownDisj u u' q n1 n2 hne (eo u _ hu).2 (eo u' _ hu').2
    · intro u b hu; exact h.lock u b (by rw [← eh u]; exact hu)
    · intro u u' b hne hu hu'
      exact h.lockUniq u u' b hne (by rw [← eh u]; exact hu) (by rw [← eh u']; exact hu')
    · intro b hb; obtain ⟨u, hu⟩ := h.lockHeld b hb; exact ⟨u, by rw [← hu]; exact eh u⟩
    · intro u
      rcases eq_or_ne u t with rfl | hne
      · simp only [Function.update_self]; exact hp
      · simp only [Function.update_of_ne hne]
        refine PcOk.frame (h.pcs u) (fun q nd' hu => ?_) (fun _ _ => ⟨rfl, rfl⟩)
        refine Function.update_of_ne ?_ _ _
        rintro rfl
        exact h.ownDisj u t q nd' nd hne hu hown
  | @rel t nd r hpc =>
    have hp := h.pcs t; rw [hpc] at hp
    have hh : holds hash (s.pc t) = some (bkt hash nd) := by rw [hpc]; rfl
    have eo : ∀ u, owned (Function.update s.pc t (.done r) u) = owned (s.pc u) := by
      intro u
      rcases eq_or_ne u t with rfl | hne
      · rw [Function.update_self, hpc]; rfl
      · rw [Function.update_of_ne hne]
    have eh : ∀ u b, holds hash (Function.update s.pc t (.done r) u) = some b → u ≠ t ∧ holds hash (s.pc u) = some b := by
      intro u b hu
      rcases eq_or_ne u t with rfl | hne
      · rw [Function.update_self] at hu; cases hu
      · rw [Function.update_of_ne hne] at hu; exact ⟨hne, hu⟩
    refine ⟨σ, F, ⟨⟨h.mem.regVal, h.mem.regLt, h.mem.regNd, h.mem.links, h.mem.freeLink, h.mem.freeNd, h.mem.freeDisj,
      h.mem.freeLt, h.mem.freeReg, h.mem.freePrev⟩, ?_, ?_, ?_, ?_, ?_, ?_⟩, Or.inl ⟨rfl, rfl⟩⟩
    · intro u q nd' hu
      have O := h.own u q nd' (by rw [← eo u]; exact hu)
      exact ⟨O.lt, O.nreg, O.nfree, O.val⟩
    · intro u u' q n1 n2 hne hu hu'
      exact h.ownDisj u u' q n1 n2 hne (by rw [← eo u]; exact hu) (by rw [← eo u']; exact hu')
    · intro u b hu
      obtain ⟨hne, hu⟩ := eh u b hu
      show Function.update s.locked _ _ _ = _
      rw [Function.update_of_ne (by rintro rfl; exact h.lockUniq u t _ hne hu hh)]; exact h.lock u b hu
    · intro u u' b hne hu hu'
      exact h.lockUniq u u' b hne (eh u b hu).2 (eh u' b hu').2
    · intro b hb
      replace hb : Function.update s.locked (bkt hash nd) false b = true := hb
      by_cases hbb : b = bkt hash nd
      · subst hbb; rw [Function.update_self] at hb; cases hb
      · rw [Function.update_of_ne hbb] at hb
        obtain ⟨u, hu⟩ := h.lockHeld b hb
        have hne : u ≠ t := by rintro rfl; rw [hh] at hu; cases hu; exact hbb rfl
        exact ⟨u, by simp only [Function.update_of_ne hne]; exact hu⟩
    · intro u
      rcases eq_or_ne u t with rfl | hne
      · simp only [Function.update_self]; exact hp
      · simp only [Function.update_of_ne hne]
        exact PcOk.frame (h.pcs u) (fun _ _ _ => rfl) (fun _ _ => ⟨rfl, rfl⟩)
  | @ret t r hpc =>
    have hp := h.pcs t; rw [hpc] at hp
    exact ⟨_, F, h.go t _ .idle (by rw [hpc]; rfl) (by rw [hpc]; rfl) rfl, Or.inr (Spec.Step.ret hp)⟩

theorem sim_init : Sim hash (init : St N) Spec.init (fun _ => []) := by
  refine ⟨⟨?_, ?_, ?_, ?_, ?_, ?_, ?_, ?_, ?_, ?_⟩, ?_, ?_, ?_, ?_, ?_, ?_⟩
  all_goals first | (intros; trivial) | skip
  all_goals simp [Spec.init, init, filt, owned, holds, PcOk, Linked]

theorem sim_run {tr : List (Ev N)} {s : St N} (r : Run hash tr s) :
    ∃ σ F, Spec.Run hash tr σ ∧ Sim hash s σ F := by
  induction r with
  | nil => exact ⟨_, _, .nil, sim_init⟩
  | tau r st ih =>
    obtain ⟨σ, F, hr, hs⟩ := ih
    obtain ⟨σ', F', hs', h | h⟩ := sim_step hs st
    · obtain ⟨-, rfl⟩ := h; exact ⟨_, _, hr, hs'⟩
    · exact ⟨_, _, .tau hr h, hs'⟩
  | vis r st ih =>
    obtain ⟨σ, F, hr, hs⟩ := ih
    obtain ⟨σ', F', hs', h | h⟩ := sim_step hs st
    · cases h.1
    · exact ⟨_, _, .vis hr h, hs'⟩

end LK

/-- **C30.** Whatever the threads do and however they are interleaved, the calls and returns are those of a
dictionary whose lookups take effect at one instant (and no access goes wrong: `fault` is not an event of the
dictionary). -/
theorem C30_linearizable (hash : N → Nat) (tr : List (Ev N)) (s : St N) (r : Run hash tr s) :
    ∃ σ, Spec.Run hash tr σ := by
  obtain ⟨σ, F, hr, -⟩ := LK.sim_run r
  exact ⟨σ, hr⟩

/-- The calls still running and the calls answered so far (content, returned node), read off the events. -/
def callStep (acc : (Nat → Option N) × List (N × Nat)) : Ev N → (Nat → Option N) × List (N × Nat)
  | .call t nd => (Function.update acc.1 t (some nd), acc.2)
  | .ret t p => (Function.update acc.1 t none, match acc.1 t with | some nd => (nd, p) :: acc.2 | none => acc.2)
  | .fault => acc

def callsOf (tr : List (Ev N)) : (Nat → Option N) × List (N × Nat) := tr.foldl callStep (fun _ => none, [])

/-- In the history `tr` some call with content `nd` has returned node `p`. -/
def Answered (tr : List (Ev N)) (nd : N) (p : Nat) : Prop := (nd, p) ∈ (callsOf tr).2

theorem callsOf_append (tr : List (Ev N)) (e : Ev N) : callsOf (tr ++ [e]) = callStep (callsOf tr) e := by
  unfold callsOf; rw [List.foldl_append]; rfl

namespace LK

/-- `p` is a right answer for `nd`. -/
def Good (hash : N → Nat) (σ : Spec.St N) (nd : N) (p : Nat) : Prop :=
  ∃ nc, (p, nc) ∈ σ.reg ∧ bkt hash nc = bkt hash nd ∧ (nc = nd ∨ TNode.eqv nd nc = true)

structure SpecInv (hash : N → Nat) (tr : List (Ev N)) (σ : Spec.St N) : Prop where
  nd : (σ.reg.map Prod.fst).Nodup
  uniq : σ.reg.Pairwise fun x y => ¬ (bkt hash y.2 = bkt hash x.2 ∧ TNode.eqv x.2 y.2 = true)
  nofault : Ev.fault ∉ tr
  pend : ∀ t, match σ.pc t with
    | .idle => (callsOf tr).1 t = none
    | .called nd => (callsOf tr).1 t = some nd
    | .done r => ∃ nd, (callsOf tr).1 t = some nd ∧ Good hash σ nd r
  ans : ∀ nd p, Answered tr nd p → Good hash σ nd p

theorem specInv_run {tr : List (Ev N)} {σ : Spec.St N} (r : Spec.Run hash tr σ) : SpecInv hash tr σ := by
  induction r with
  | nil => exact ⟨by simp [Spec.init], by simp [Spec.init], by simp, fun t => rfl, fun nd p h => by simp [Answered, callsOf] at h⟩
  | @tau tr s s' r st ih =>
    cases st with
    | @hit t nd x hpc hf =>
      have hg : Good hash s nd x.1 := by
        have hm := List.mem_of_find?_eq_some hf
        have hp := List.find?_some hf
        simp only [Bool.and_eq_true, decide_eq_true_eq] at hp
        exact ⟨x.2, hm, hp.1, Or.inr hp.2⟩
      refine ⟨ih.nd, ih.uniq, ih.nofault, fun u => ?_, ih.ans⟩
      rcases eq_or_ne u t with rfl | hne
      · simp only [Function.update_self]
        have := ih.pend u; rw [hpc] at this
        exact ⟨nd, this, hg⟩
      · simp only [Function.update_of_ne hne]; exact ih.pend u
    | @new t nd p hpc hf hp =>
      have mono : ∀ n q, Good hash s n q → Good hash ⟨(p, nd) :: s.reg, Function.update s.pc t (.done p)⟩ n q := by
        rintro n q ⟨nc, h1, h2⟩; exact ⟨nc, List.mem_cons_of_mem _ h1, h2⟩
      refine ⟨?_, ?_, ih.nofault, fun u => ?_, fun n q h => mono n q (ih.ans n q h)⟩
      · rw [List.map_cons, List.nodup_cons]
        refine ⟨fun hm => ?_, ih.nd⟩
        obtain ⟨x, hx, hx'⟩ := List.mem_map.mp hm
        exact hp x hx hx'
      · refine List.pairwise_cons.mpr ⟨fun y hy hh => ?_, ih.uniq⟩
        have := List.find?_eq_none.mp hf y hy
        exact this (by simp [hh.1, hh.2])
      · rcases eq_or_ne u t with rfl | hne
        · simp only [Function.update_self]
          have := ih.pend u; rw [hpc] at this
          exact ⟨nd, this, nd, List.mem_cons_self .., rfl, Or.inl rfl⟩
        · simp only [Function.update_of_ne hne]
          have := ih.pend u
          cases hq : s.pc u with
          | idle => rw [hq] at this; exact this
          | called n => rw [hq] at this; exact this
          | done r => rw [hq] at this; obtain ⟨n, h1, h2⟩ := this; exact ⟨n, h1, mono _ _ h2⟩
  | @vis tr s s' e r st ih =>
    cases st with
    | @call t nd hpc =>
      have hc : callsOf (tr ++ [.call t nd]) = (Function.update (callsOf tr).1 t (some nd), (callsOf tr).2) := callsOf_append _ _
      refine ⟨ih.nd, ih.uniq, by simp [ih.nofault], fun u => ?_, fun n q h => ih.ans n q (by unfold Answered at h ⊢; rw [hc] at h; exact h)⟩
      rw [hc]
      rcases eq_or_ne u t with rfl | hne
      · simp only [Function.update_self]
      · simp only [Function.update_of_ne hne]; exact ih.pend u
    | @ret t p hpc =>
      have hpend := ih.pend t
      rw [hpc] at hpend
      obtain ⟨nd, h1, h2⟩ := hpend
      have hc : callsOf (tr ++ [.ret t p]) = (Function.update (callsOf tr).1 t none, (nd, p) :: (callsOf tr).2) := by
        rw [callsOf_append]; simp only [callStep, h1]
      refine ⟨ih.nd, ih.uniq, by simp [ih.nofault], fun u => ?_, fun n q h => ?_⟩
      · rw [hc]
        rcases eq_or_ne u t with rfl | hne
        · simp only [Function.update_self]
        · simp only [Function.update_of_ne hne]; exact ih.pend u
      · unfold Answered at h; rw [hc] at h
        rcases List.mem_cons.mp h with h | h
        · cases h; exact h2
        · exact ih.ans n q h

theorem reg_inj {σ : Spec.St N} (h : (σ.reg.map Prod.fst).Nodup) {p : Nat} {a b : N} (ha : (p, a) ∈ σ.reg) (hb : (p, b) ∈ σ.reg) :
    a = b := by
  by_contra hne
  rw [List.nodup_iff_pairwise_ne, List.pairwise_map] at h
  haveI : Std.Symm (fun a b : Nat × N => a.1 ≠ b.1) := ⟨fun _ _ h => h.symm⟩
  exact h.forall ha hb (fun he => hne (congrArg Prod.snd he)) rfl

end LK

/-- **C30, no bad access.** No access of `lookup` goes through a null or unwritten pointer, and the assertion
holds. -/
theorem C30_no_fault (hash : N → Nat) (tr : List (Ev N)) (s : St N) (r : Run hash tr s) : Ev.fault ∉ tr := by
  obtain ⟨σ, hr⟩ := C30_linearizable hash tr s r
  exact (LK.specInv_run hr).nofault

/-- **C30, sharing.** When `operator==` is plain equality (no tolerance), two answered calls, of any threads, get
the same node iff they had the same content. -/
theorem C30_same_node (hash : N → Nat) (heq : ∀ a b : N, TNode.eqv a b = true ↔ a = b) (tr : List (Ev N)) (s : St N)
    (r : Run hash tr s) (nd nd' : N) (p p' : Nat) (h : Answered tr nd p) (h' : Answered tr nd' p') : nd = nd' ↔ p = p' := by
  obtain ⟨σ, hr⟩ := C30_linearizable hash tr s r
  have I := LK.specInv_run hr
  have key : ∀ n q, Answered tr n q → (q, n) ∈ σ.reg := by
    intro n q hq
    obtain ⟨nc, h1, -, h2⟩ := I.ans n q hq
    rcases h2 with rfl | h2
    · exact h1
    · rw [heq] at h2; subst h2; exact h1
  have m := key _ _ h
  have m' := key _ _ h'
  constructor
  · rintro rfl
    by_contra hne
    have hu := I.uniq
    have hsym : ∀ l : List (Nat × N), (l.Pairwise fun x y => ¬ (bkt hash y.2 = bkt hash x.2 ∧ TNode.eqv x.2 y.2 = true)) →
        (p, nd) ∈ l → (p', nd) ∈ l → False := by
      intro l hl
      induction hl with
      | nil => intro hx; cases hx
      | @cons a l ha _ ih =>
        intro h1 h2
        rcases List.mem_cons.mp h1 with rfl | h1 <;> rcases List.mem_cons.mp h2 with h2 | h2
        · cases h2; exact hne rfl
        · exact ha _ h2 ⟨rfl, (heq _ _).mpr rfl⟩
        · rw [← h2] at ha; exact ha _ h1 ⟨rfl, (heq _ _).mpr rfl⟩
        · exact ih h1 h2
    exact hsym _ hu m m'
  · rintro rfl
    exact LK.reg_inj I.nd m m'

/-- **C30, with tolerance.** In general, a call returns a node of the right level whose content `operator==`
identifies with the requested one … -/
theorem C30_answers (hash : N → Nat) (tr : List (Ev N)) (s : St N) (r : Run hash tr s) (nd : N) (p : Nat)
    (h : Answered tr nd p) :
    ∃ nc, s.val p = some nc ∧ TNode.var nc = TNode.var nd ∧ (nc = nd ∨ TNode.eqv nd nc = true) := by
  obtain ⟨σ, F, hr, hs⟩ := LK.sim_run r
  have I := LK.specInv_run hr
  obtain ⟨nc, h1, h2, h3⟩ := I.ans nd p h
  exact ⟨nc, hs.mem.regVal _ h1, congrArg Prod.fst h2, h3⟩

/-- … and no later step of any thread changes that node's content: handles can be read without the lock. -/
theorem C30_immutable (hash : N → Nat) (tr : List (Ev N)) (s : St N) (r : Run hash tr s) (nd : N) (p : Nat)
    (h : Answered tr nd p) (e : Option (Ev N)) (s' : St N) (st : Step hash s e s') : s'.val p = s.val p := by
  obtain ⟨σ, F, hr, hs⟩ := LK.sim_run r
  have I := LK.specInv_run hr
  obtain ⟨nc, h1, h2, h3⟩ := I.ans nd p h
  obtain ⟨σ', F', hs', hstep⟩ := LK.sim_step hs st
  have hm : (p, nc) ∈ σ'.reg := by
    rcases hstep with ⟨-, rfl⟩ | hstep
    · exact h1
    · cases hstep with
      | new _ _ _ => exact List.mem_cons_of_mem _ h1
      | _ => exact h1
  rw [hs.mem.regVal _ h1, hs'.mem.regVal _ hm]

namespace LK
/-- A thread that is neither idle nor waiting for a lock can make a step of its own. -/
theorem own_step {s : St N} (t : Nat) (h1 : s.pc t ≠ .idle) (h2 : ∀ nd p, s.pc t ≠ .acq nd p) :
    ∃ e s', Step hash s e s' ∧ (s'.pc t = .idle ∨ s'.pc t ≠ s.pc t) := by
  cases hpc : s.pc t with
  | idle => exact absurd hpc h1
  | get nd =>
    cases hav : s.avail t with
    | none => exact ⟨_, _, .getNew hpc hav, Or.inr (by simp)⟩
    | some p => exact ⟨_, _, .getOld hpc hav, Or.inr (by simp)⟩
  | acq nd p => exact absurd hpc (h2 nd p)
  | head nd p =>
    cases hd : s.hd (bkt hash nd) with
    | none => exact ⟨_, _, .headNull hpc hd, Or.inr (by simp [St.go])⟩
    | some c => exact ⟨_, _, .headSome hpc hd, Or.inr (by simp [St.go])⟩
  | put nd p => exact ⟨_, _, .put hpc, Or.inr (by simp)⟩
  | cmp nd p c =>
    cases hv : s.val c with
    | none => exact ⟨_, _, .cmpBad hpc hv, Or.inl (by simp [St.go])⟩
    | some nc =>
      cases he : TNode.eqv nd nc with
      | false => exact ⟨_, _, .cmpMiss hpc hv he, Or.inr (by simp [St.go])⟩
      | true =>
        by_cases hx : TNode.var nc = TNode.var nd
        · exact ⟨_, _, .cmpHit hpc hv he hx, Or.inr (by simp [St.go])⟩
        · exact ⟨_, _, .cmpAssert hpc hv he hx, Or.inl (by simp [St.go])⟩
  | prev nd p c =>
    cases hv : s.previous c with
    | none => exact ⟨_, _, .prevNull hpc hv, Or.inr (by simp [St.go])⟩
    | some c' => exact ⟨_, _, .prevSome hpc hv, Or.inr (by simp [St.go])⟩
  | link0 nd p => exact ⟨_, _, .link0 hpc, Or.inr (by simp [St.go])⟩
  | link1 nd p h => exact ⟨_, _, .link1 hpc, Or.inr (by simp)⟩
  | link2 nd p => exact ⟨_, _, .link2 hpc, Or.inr (by simp [St.go])⟩
  | link3 nd p h =>
    cases h with
    | none => exact ⟨_, _, .link3Bad hpc, Or.inl (by simp [St.go])⟩
    | some h => exact ⟨_, _, .link3 hpc, Or.inr (by simp)⟩
  | link4 nd p => exact ⟨_, _, .link4 hpc, Or.inr (by simp)⟩
  | give nd p c => exact ⟨_, _, .give hpc, Or.inr (by simp)⟩
  | rel nd r => exact ⟨_, _, .rel hpc, Or.inr (by simp)⟩
  | done r => exact ⟨_, _, .ret hpc, Or.inl (by simp [St.go])⟩
end LK

/-- **C30, no deadlock.** As long as a call is running, some thread can move on (other than by spinning). -/
theorem C30_no_deadlock (hash : N → Nat) (tr : List (Ev N)) (s : St N) (r : Run hash tr s) (t : Nat) (h : s.pc t ≠ .idle) :
    ∃ t' e s', s.pc t' ≠ .idle ∧ Step hash s e s' ∧ (s'.pc t' = .idle ∨ s'.pc t' ≠ s.pc t') := by
  obtain ⟨σ, F, hr, hs⟩ := LK.sim_run r
  by_cases ha : ∃ nd p, s.pc t = .acq nd p
  · obtain ⟨nd, p, ha⟩ := ha
    cases hl : s.locked (bkt hash nd) with
    | false => exact ⟨t, _, _, h, .acq ha hl, Or.inr (by simp [ha])⟩
    | true =>
      obtain ⟨u, hu⟩ := hs.lockHeld _ hl
      have h1 : s.pc u ≠ .idle := by intro hx; rw [hx] at hu; cases hu
      have h2 : ∀ nd p, s.pc u ≠ .acq nd p := by intro nd p hx; rw [hx] at hu; cases hu
      obtain ⟨e, s', st, hx⟩ := LK.own_step (hash := hash) u h1 h2
      exact ⟨u, e, s', h1, st, hx⟩
  · have h2 : ∀ nd p, s.pc t ≠ .acq nd p := fun nd p hx => ha ⟨nd, p, hx⟩
    obtain ⟨e, s', st, hx⟩ := LK.own_step (hash := hash) t h h2
    exact ⟨t, e, s', h, st, hx⟩

/-- Contents for the demonstration: level 0, a number. -/
instance demoNode : TNode (Int × Nat) where
  var x := x.1
  setVar x v := (v, x.2)
  eqv a b := decide (a = b)

/-- A run meeting the hypotheses: threads 0 and 1 intern the same content at the same time, thread 1 spinning
while 0 holds the lock, and get the same node. -/
theorem lookup_demo : ∃ (tr : List (Ev (Int × Nat))) (s : St (Int × Nat)) (p : Nat), Run (fun x => x.2) tr s ∧
    tr = [.call 0 (0, 7), .call 1 (0, 7), .ret 0 p, .ret 1 p] := by
  let hash : Int × Nat → Nat := fun x => x.2
  have r0 : Run hash [] init := .nil
  have r1 := Run.vis r0 (.call (t := 0) (nd := (0, 7)) rfl)
  have r2 := Run.vis r1 (.call (t := 1) (nd := (0, 7)) rfl)
  have r3 := Run.tau r2 (.getNew (t := 0) (nd := (0, 7)) rfl rfl)
  have r4 := Run.tau r3 (.getNew (t := 1) (nd := (0, 7)) rfl rfl)
  have r5 := Run.tau r4 (.acq (t := 0) (nd := (0, 7)) (p := 0) rfl rfl)
  have r6 := Run.tau r5 (.spin (t := 1) (nd := (0, 7)) (p := 1) rfl rfl)
  have r7 := Run.tau r6 (.headNull (t := 0) (nd := (0, 7)) (p := 0) rfl rfl)
  have r8 := Run.tau r7 (.put (t := 0) (nd := (0, 7)) (p := 0) rfl)
  have r9 := Run.tau r8 (.rel (t := 0) (nd := (0, 7)) (r := 0) rfl)
  have r10 := Run.tau r9 (.acq (t := 1) (nd := (0, 7)) (p := 1) rfl rfl)
  have r11 := Run.vis r10 (.ret (t := 0) (r := 0) rfl)
  have r12 := Run.tau r11 (.headSome (t := 1) (nd := (0, 7)) (p := 1) (c := 0) rfl rfl)
  have r13 := Run.tau r12 (.cmpHit (t := 1) (nd := (0, 7)) (p := 1) (c := 0) (nc := (0, 7)) rfl rfl (by decide) rfl)
  have r14 := Run.tau r13 (.give (t := 1) (nd := (0, 7)) (p := 1) (c := 0) rfl)
  have r15 := Run.tau r14 (.rel (t := 1) (nd := (0, 7)) (r := 0) rfl)
  have r16 := Run.vis r15 (.ret (t := 1) (r := 0) rfl)
  exact ⟨_, _, 0, r16, rfl⟩

end QDD.Props
