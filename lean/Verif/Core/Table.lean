import Verif.Core.Weights
/-!
# The unique table (include/table.hpp)

Model of `CHashTable<T>` for an arbitrary node type.  Addresses are natural numbers.  The intrusive
`previous` links of a bucket are modelled as the list of its nodes, newest first; the intrusive `next` links
of the free list as a list.  The per-bucket spin lock is modelled separately (`Verif/Conc/Lookup.lean`).
-/

namespace QDD

/-- What the table needs from a node type: `v`, writing `v`, and `operator==` (dd.h 209-211, 319-321). -/
class TNode (N : Type) where
  var : N → Int
  setVar : N → Int → N
  eqv : N → N → Bool

/-- Per-thread allocator state (`struct Cache`, table.hpp 164-173): free list, nodes left in the current
chunk, size of the next chunk, total allocated. -/
structure Alloc where
  avail : List Nat
  left : Nat
  allocSize : Nat
  allocs : Nat
  deriving Repr

/-- Initial allocator (table.hpp 164-173; `INITIAL_ALLOCATION_SIZE`, common.h 30; `GROWTH_FACTOR`, 32). -/
def Alloc.init : Alloc := ⟨[], 2048, 4096, 2048⟩

/-- `CHashTable<T>` (table.hpp 31-185).  `mem`: contents of the node at an address (`none`: never written);
`next`: first address never handed out; `thr`: per-thread allocators; `chains v key`: bucket `key` of
`_tables[v]`. -/
structure UTable (N : Type) where
  mem : Nat → Option N
  next : Nat
  thr : Nat → Alloc
  chains : Int → Nat → List Nat

namespace UTable
variable {N : Type} [TNode N]

/-- A fresh table: `CHashTable(QubitCount n)` (table.hpp 33). -/
def empty : UTable N := ⟨fun _ => none, 0, fun _ => Alloc.init, fun _ _ => []⟩

/-- `getNode` (table.hpp 37-61): pop the free list, else take the next node of the chunk, growing if the
chunk is used up.  Chunk memory is modelled as an unbounded address space. -/
def getNode (tid : Nat) (t : UTable N) : Nat × UTable N :=
  let a := t.thr tid
  match a.avail with
  | p :: ps => (p, { t with thr := upd t.thr tid { a with avail := ps } })
  | [] =>
    let a := if a.left = 0 then
        { a with left := a.allocSize, allocs := a.allocs + a.allocSize, allocSize := a.allocSize * 2 } else a
    (t.next, { t with next := t.next + 1, thr := upd t.thr tid { a with left := a.left - 1 } })

/-- Writing the fields of a node through its pointer (e.g. dd.cpp 152-153, 162-163, 88-94, 129-138). -/
def write (p : Nat) (nd : N) (t : UTable N) : UTable N := { t with mem := upd t.mem p (some nd) }

/-- `returnNode` (table.hpp 63-77): `v = -2`, push on the thread's free list. -/
def returnNode (tid : Nat) (p : Nat) (t : UTable N) : UTable N :=
  { t with
    mem := upd t.mem p ((t.mem p).map (TNode.setVar · (-2)))
    thr := upd t.thr tid { t.thr tid with avail := p :: (t.thr tid).avail } }

/-- The `while (current != nullptr)` loop of `lookup` (table.hpp 114-126). -/
def scan (mem : Nat → Option N) (nd : N) : List Nat → Except Err (Option Nat)
  | [] => .ok none
  | c :: cs => match mem c with
    | none => .error .badNode
    | some nc => if TNode.eqv nd nc then .ok (some c) else scan mem nd cs

/-- Linking node `p` as the newest of bucket `(v, key)` (table.hpp 106-107, 128-130; 87-94). -/
def push (v : Int) (key p : Nat) (t : UTable N) : UTable N :=
  { t with chains := upd t.chains v (upd (t.chains v) key (p :: t.chains v key)) }

/-- `lookup` (table.hpp 98-135), `hash` being `Hash()`.  `_tables[v]` with `v` out of range is an error. -/
def lookup (hash : N → Nat) (tid : Nat) (p : Nat) (t : UTable N) : Except Err (Nat × UTable N) :=
  match t.mem p with
  | none => .error .badNode
  | some nd =>
    let key := hash nd % NBUCKETS
    let v := TNode.var nd
    if v < 0 ∨ (NQUBITS : Int) ≤ v then .error .oob else
    match scan t.mem nd (t.chains v key) with
    | .error e => .error e
    | .ok (some c) => .ok (c, returnNode tid p t)
    | .ok none => .ok (p, push v key p t)

/-- `register_wo_lookup` (table.hpp 79-96). -/
def register (hash : N → Nat) (p : Nat) (t : UTable N) : Except Err (Nat × UTable N) :=
  match t.mem p with
  | none => .error .badNode
  | some nd =>
    let key := hash nd % NBUCKETS
    let v := TNode.var nd
    if v < 0 ∨ (NQUBITS : Int) ≤ v then .error .oob else
    .ok (p, push v key p t)

/-- `get_allocations` (table.hpp 144-149). -/
def allocations (tid : Nat) (t : UTable N) : Nat := (t.thr tid).allocs

/-- Node `nd` is stored at `p` and registered in its bucket. -/
def Reg (hash : N → Nat) (t : UTable N) (p : Nat) (nd : N) : Prop :=
  t.mem p = some nd ∧ p ∈ t.chains (TNode.var nd) (hash nd % NBUCKETS)

/-- Registered nodes stay registered with the same content. -/
def Ext (hash : N → Nat) (t t' : UTable N) : Prop := ∀ p nd, Reg hash t p nd → Reg hash t' p nd

/-- Structural invariant of the table; `own` are the nodes handed out by `getNode` and not yet looked up or
returned. -/
structure TInv (hash : N → Nat) (t : UTable N) (own : List Nat) : Prop where
  chain : ∀ v b p, p ∈ t.chains v b →
    p < t.next ∧ ∃ nd, t.mem p = some nd ∧ TNode.var nd = v ∧ hash nd % NBUCKETS = b ∧
      0 ≤ v ∧ v < (NQUBITS : Int)
  nodup : ∀ v b, (t.chains v b).Nodup
  availLt : ∀ tid, ∀ p ∈ (t.thr tid).avail, p < t.next
  availChain : ∀ tid, ∀ p ∈ (t.thr tid).avail, ∀ v b, p ∉ t.chains v b
  availNodup : ∀ tid, (t.thr tid).avail.Nodup
  availDisj : ∀ tid tid', tid ≠ tid' → ∀ p ∈ (t.thr tid).avail, p ∉ (t.thr tid').avail
  ownNodup : own.Nodup
  ownLt : ∀ p ∈ own, p < t.next
  ownChain : ∀ p ∈ own, ∀ v b, p ∉ t.chains v b
  ownAvail : ∀ p ∈ own, ∀ tid, p ∉ (t.thr tid).avail

/-- No registered node has the content of another one (in the sense of `operator==`, newer against older). -/
def Uniq (t : UTable N) : Prop :=
  ∀ v b, (t.chains v b).Pairwise
    (fun p q => ∀ x y, t.mem p = some x → t.mem q = some y → TNode.eqv x y = false)

variable {hash : N → Nat}

theorem Ext.refl (t : UTable N) : Ext hash t t := fun _ _ h => h
theorem Ext.trans {a b c : UTable N} (h : Ext hash a b) (h' : Ext hash b c) : Ext hash a c :=
  fun p nd x => h' p nd (h p nd x)

theorem TInv.reg {t : UTable N} {own} (h : TInv hash t own) {v b p} (hp : p ∈ t.chains v b) :
    ∃ nd, Reg hash t p nd ∧ TNode.var nd = v := by
  obtain ⟨_, nd, hm, hv, hb, _⟩ := h.chain v b p hp
  exact ⟨nd, ⟨hm, by subst hv hb; exact hp⟩, hv⟩

theorem TInv.reg_var {t : UTable N} {own} (h : TInv hash t own) {p nd} (hr : Reg hash t p nd) :
    0 ≤ TNode.var nd ∧ TNode.var nd < (NQUBITS : Int) := by
  obtain ⟨_, nd', hm, _, _, h0, h1⟩ := h.chain _ _ p hr.2
  exact ⟨h0, h1⟩

theorem empty_inv : TInv hash (empty : UTable N) [] := by
  constructor <;> simp [empty, Alloc.init]

theorem empty_uniq : Uniq (empty : UTable N) := by intro v b; simp [empty]

theorem getNode_spec {t : UTable N} {own} (h : TInv hash t own) (tid : Nat) :
    TInv hash (getNode tid t).2 ((getNode tid t).1 :: own) ∧ (getNode tid t).2.chains = t.chains ∧
      (getNode tid t).2.mem = t.mem := by
  unfold getNode
  simp only
  split
  · next p ps heq =>
    have hmem : ∀ tid' q, q ∈ (upd t.thr tid { t.thr tid with avail := ps } tid').avail →
        q ∈ (t.thr tid').avail := by
      intro tid' q hq
      by_cases e : tid' = tid
      · subst e; simp at hq; rw [heq]; exact List.mem_cons_of_mem _ hq
      · rwa [upd_ne _ _ _ e] at hq
    have hp : p ∈ (t.thr tid).avail := by rw [heq]; simp
    refine ⟨⟨h.chain, h.nodup, ?_, ?_, ?_, ?_, ?_, ?_, ?_, ?_⟩, rfl, rfl⟩
    · intro tid' q hq; exact h.availLt tid' q (hmem tid' q hq)
    · intro tid' q hq; exact h.availChain tid' q (hmem tid' q hq)
    · intro tid'
      by_cases e : tid' = tid
      · subst e; simp; have := h.availNodup tid'; rw [heq] at this; exact (List.nodup_cons.1 this).2
      · simp only [upd_ne _ _ _ e]; exact h.availNodup tid'
    · intro a b hab q hq hq'
      exact h.availDisj a b hab q (hmem a q hq) (hmem b q hq')
    · refine List.nodup_cons.2 ⟨fun ho => h.ownAvail p ho tid hp, h.ownNodup⟩
    · intro q hq
      rcases List.mem_cons.1 hq with rfl | hq
      · exact h.availLt tid q hp
      · exact h.ownLt q hq
    · intro q hq
      rcases List.mem_cons.1 hq with rfl | hq
      · exact h.availChain tid q hp
      · exact h.ownChain q hq
    · intro q hq tid' hq'
      rcases List.mem_cons.1 hq with rfl | hq
      · by_cases e : tid' = tid
        · subst e; simp at hq'; have := h.availNodup tid'; rw [heq] at this
          exact (List.nodup_cons.1 this).1 hq'
        · simp only [upd_ne _ _ _ e] at hq'; exact h.availDisj tid' tid e _ hq' hp
      · exact h.ownAvail q hq tid' (hmem tid' q hq')
  · next heq =>
    have hav : ∀ (a : Alloc) tid', a.avail = [] →
        (upd t.thr tid a tid').avail = (t.thr tid').avail := by
      intro a tid' ha
      by_cases e : tid' = tid
      · subst e; simp [ha, heq]
      · rw [upd_ne _ _ _ e]
    set_option linter.unusedVariables false in
    have key : ∀ a : Alloc, a.avail = [] →
        TInv hash ({ t with next := t.next + 1, thr := upd t.thr tid a } : UTable N) (t.next :: own) := by
      intro a ha
      have hav' := fun tid' => hav a tid' ha
      refine ⟨?_, h.nodup, ?_, ?_, ?_, ?_, ?_, ?_, ?_, ?_⟩
      · intro v b p hp
        obtain ⟨h1, h2⟩ := h.chain v b p hp
        exact ⟨Nat.lt_succ_of_lt h1, h2⟩
      · intro tid' q hq; simp only [hav'] at hq; exact Nat.lt_succ_of_lt (h.availLt tid' q hq)
      · intro tid' q hq; simp only [hav'] at hq; exact h.availChain tid' q hq
      · intro tid'; simp only [hav']; exact h.availNodup tid'
      · intro x y hxy q hq; simp only [hav'] at hq ⊢; exact h.availDisj x y hxy q hq
      · exact List.nodup_cons.2 ⟨fun ho => Nat.lt_irrefl _ (h.ownLt _ ho), h.ownNodup⟩
      · intro q hq
        rcases List.mem_cons.1 hq with rfl | hq
        · exact Nat.lt_succ_self _
        · exact Nat.lt_succ_of_lt (h.ownLt q hq)
      · intro q hq v b hqc
        rcases List.mem_cons.1 hq with rfl | hq
        · exact Nat.lt_irrefl _ (h.chain v b _ hqc).1
        · exact h.ownChain q hq v b hqc
      · intro q hq tid' hq'
        simp only [hav'] at hq'
        rcases List.mem_cons.1 hq with rfl | hq
        · exact Nat.lt_irrefl _ (h.availLt tid' _ hq')
        · exact h.ownAvail q hq tid' hq'
    refine ⟨key _ ?_, rfl, rfl⟩
    split <;> simp [heq]

theorem write_inv {t : UTable N} {own} (h : TInv hash t own) {p : Nat} (hp : p ∈ own) (nd : N) :
    TInv hash (write p nd t) own := by
  refine ⟨?_, h.nodup, h.availLt, h.availChain, h.availNodup, h.availDisj, h.ownNodup, h.ownLt, h.ownChain,
    h.ownAvail⟩
  intro v b q hq
  obtain ⟨h1, x, hx, h2⟩ := h.chain v b q hq
  refine ⟨h1, x, ?_, h2⟩
  have : q ≠ p := fun e => h.ownChain p hp v b (e ▸ hq)
  simp only [write, upd_ne _ _ _ this]; exact hx

/-- Changing only memory outside the chains changes nothing registered. -/
theorem reg_of_mem_eq {t t' : UTable N} (hc : t'.chains = t.chains)
    (hm : ∀ v b p, p ∈ t.chains v b → t'.mem p = t.mem p) (p : Nat) (nd : N) :
    Reg hash t' p nd ↔ Reg hash t p nd := by
  unfold Reg
  rw [hc]
  constructor
  · rintro ⟨h1, h2⟩; exact ⟨(hm _ _ _ h2) ▸ h1, h2⟩
  · rintro ⟨h1, h2⟩; exact ⟨(hm _ _ _ h2).symm ▸ h1, h2⟩

theorem uniq_of_mem_eq {t t' : UTable N} (hc : t'.chains = t.chains)
    (hm : ∀ v b p, p ∈ t.chains v b → t'.mem p = t.mem p) (h : Uniq t) : Uniq t' := by
  intro v b
  rw [hc]
  refine List.Pairwise.imp_of_mem ?_ (h v b)
  intro p q hp hq hpq x y hx hy
  rw [hm v b p hp] at hx
  rw [hm v b q hq] at hy
  exact hpq x y hx hy

theorem write_mem_eq {t : UTable N} {own} (h : TInv hash t own) {p : Nat} (hp : p ∈ own) (nd : N) :
    ∀ v b r, r ∈ t.chains v b → (write p nd t).mem r = t.mem r := by
  intro v b r hr
  have : r ≠ p := fun e => h.ownChain p hp v b (e ▸ hr)
  simp [write, upd_ne _ _ _ this]

theorem return_mem_eq {t : UTable N} {own} {p : Nat} (h : TInv hash t (p :: own)) (tid : Nat) :
    ∀ v b r, r ∈ t.chains v b → (returnNode tid p t).mem r = t.mem r := by
  intro v b r hr
  have : r ≠ p := fun e => h.ownChain p List.mem_cons_self v b (e ▸ hr)
  simp [returnNode, upd_ne _ _ _ this]

theorem write_reg {t : UTable N} {own} (h : TInv hash t own) {p : Nat} (hp : p ∈ own) (nd : N) (q : Nat)
    (x : N) : Reg hash (write p nd t) q x ↔ Reg hash t q x :=
  reg_of_mem_eq (t := t) (t' := write p nd t) rfl (write_mem_eq h hp nd) q x

theorem write_uniq {t : UTable N} {own} (h : TInv hash t own) {p : Nat} (hp : p ∈ own) (nd : N)
    (hu : Uniq t) : Uniq (write p nd t) :=
  uniq_of_mem_eq (t := t) (t' := write p nd t) rfl (write_mem_eq h hp nd) hu

theorem return_inv {t : UTable N} {own} {p : Nat} (h : TInv hash t (p :: own)) (tid : Nat) :
    TInv hash (returnNode tid p t) own := by
  have hpo : p ∈ p :: own := List.mem_cons_self
  have hnc := h.ownChain p hpo
  have hav : ∀ tid' q, q ∈ ((returnNode tid p t).thr tid').avail →
      q ∈ (t.thr tid').avail ∨ (q = p ∧ tid' = tid) := by
    intro tid' q hq
    by_cases e : tid' = tid
    · subst e; simp [returnNode] at hq
      rcases hq with rfl | hq
      · exact .inr ⟨rfl, rfl⟩
      · exact .inl hq
    · simp only [returnNode, upd_ne _ _ _ e] at hq; exact .inl hq
  refine ⟨?_, h.nodup, ?_, ?_, ?_, ?_, ?_, ?_, ?_, ?_⟩
  · intro v b q hq
    obtain ⟨h1, x, hx, h2⟩ := h.chain v b q hq
    have : q ≠ p := fun e => hnc v b (e ▸ hq)
    exact ⟨h1, x, by simp only [returnNode, upd_ne _ _ _ this]; exact hx, h2⟩
  · intro tid' q hq
    rcases hav tid' q hq with hq | ⟨rfl, _⟩
    · exact h.availLt tid' q hq
    · exact h.ownLt _ hpo
  · intro tid' q hq
    rcases hav tid' q hq with hq | ⟨rfl, _⟩
    · exact h.availChain tid' q hq
    · exact hnc
  · intro tid'
    by_cases e : tid' = tid
    · subst e; simp only [returnNode, upd_same]
      exact List.nodup_cons.2 ⟨h.ownAvail p hpo tid', h.availNodup tid'⟩
    · simp only [returnNode, upd_ne _ _ _ e]; exact h.availNodup tid'
  · intro a b hab q hq hq'
    rcases hav a q hq with h1 | ⟨e1, e2⟩ <;> rcases hav b q hq' with h2 | ⟨e3, e4⟩
    · exact h.availDisj a b hab q h1 h2
    · exact h.ownAvail q (e3 ▸ hpo) a h1
    · exact h.ownAvail q (e1 ▸ hpo) b h2
    · exact hab (e2.trans e4.symm)
  · exact (List.nodup_cons.1 h.ownNodup).2
  · intro q hq; exact h.ownLt q (List.mem_cons_of_mem _ hq)
  · intro q hq; exact h.ownChain q (List.mem_cons_of_mem _ hq)
  · intro q hq tid' hq'
    rcases hav tid' q hq' with h1 | ⟨rfl, rfl⟩
    · exact h.ownAvail q (List.mem_cons_of_mem _ hq) tid' h1
    · exact (List.nodup_cons.1 h.ownNodup).1 hq

theorem return_reg {t : UTable N} {own} {p : Nat} (h : TInv hash t (p :: own)) (tid : Nat) (q : Nat)
    (x : N) : Reg hash (returnNode tid p t) q x ↔ Reg hash t q x :=
  reg_of_mem_eq (t := t) (t' := returnNode tid p t) rfl
    (return_mem_eq h tid) q x

theorem return_uniq {t : UTable N} {own} {p : Nat} (h : TInv hash t (p :: own)) (tid : Nat)
    (hu : Uniq t) : Uniq (returnNode tid p t) :=
  uniq_of_mem_eq (t := t) (t' := returnNode tid p t) rfl
    (return_mem_eq h tid) hu

theorem scan_spec {t : UTable N} {own} (h : TInv hash t own) (nd : N) (v : Int) (b : Nat) :
    ∀ l, (∀ p ∈ l, p ∈ t.chains v b) →
      (∃ c nc, scan t.mem nd l = .ok (some c) ∧ c ∈ l ∧ t.mem c = some nc ∧ TNode.eqv nd nc = true) ∨
      (scan t.mem nd l = .ok none ∧ ∀ c ∈ l, ∀ nc, t.mem c = some nc → TNode.eqv nd nc = false) := by
  intro l
  induction l with
  | nil => intro _; right; simp [scan]
  | cons c cs ih =>
    intro hl
    obtain ⟨_, nc, hm, _⟩ := h.chain v b c (hl c List.mem_cons_self)
    cases he : TNode.eqv nd nc with
    | true => left; exact ⟨c, nc, by simp [scan, hm, he], List.mem_cons_self, hm, he⟩
    | false =>
      rcases ih (fun p hp => hl p (List.mem_cons_of_mem _ hp)) with ⟨d, nd', h1, h2, h3⟩ | ⟨h1, h2⟩
      · left; exact ⟨d, nd', by simp [scan, hm, he, h1], List.mem_cons_of_mem _ h2, h3⟩
      · right
        refine ⟨by simp [scan, hm, he, h1], ?_⟩
        intro d hd nd' hnd'
        rcases List.mem_cons.1 hd with rfl | hd
        · rw [hm] at hnd'; cases hnd'; exact he
        · exact h2 d hd nd' hnd'

/-- Pushing an owned node on its bucket. -/
theorem push_spec {t : UTable N} {own} {p : Nat} {nd : N} (h : TInv hash t (p :: own))
    (hm : t.mem p = some nd) (hv0 : 0 ≤ TNode.var nd) (hv1 : TNode.var nd < (NQUBITS : Int)) :
    let t' : UTable N := push (TNode.var nd) (hash nd % NBUCKETS) p t
    TInv hash t' own ∧ (∀ q x, Reg hash t' q x ↔ (Reg hash t q x ∨ (q = p ∧ x = nd))) := by
  intro t'
  have hpo : p ∈ p :: own := List.mem_cons_self
  have hch : ∀ v b, t'.chains v b =
      if v = TNode.var nd ∧ b = hash nd % NBUCKETS then p :: t.chains v b else t.chains v b := by
    intro v b
    by_cases hv : v = TNode.var nd
    · subst hv
      by_cases hb : b = hash nd % NBUCKETS
      · subst hb; simp [t', push]
      · simp [t', push, hb, upd_ne]
    · simp [t', push, hv, upd_ne]
  have hmemc : ∀ v b q, q ∈ t'.chains v b ↔
      (q ∈ t.chains v b ∨ (q = p ∧ v = TNode.var nd ∧ b = hash nd % NBUCKETS)) := by
    intro v b q
    rw [hch]
    split
    · next hvb => simp [hvb.1, hvb.2]; exact or_comm
    · next hvb => simp [hvb]
  refine ⟨⟨?_, ?_, h.availLt, ?_, h.availNodup, h.availDisj, (List.nodup_cons.1 h.ownNodup).2, ?_, ?_, ?_⟩, ?_⟩
  · intro v b q hq
    rcases (hmemc v b q).1 hq with hq | ⟨rfl, rfl, rfl⟩
    · exact h.chain v b q hq
    · exact ⟨h.ownLt _ hpo, nd, hm, rfl, rfl, hv0, hv1⟩
  · intro v b
    rw [hch]
    split
    · exact List.nodup_cons.2 ⟨h.ownChain p hpo v b, h.nodup v b⟩
    · exact h.nodup v b
  · intro tid q hq v b hqc
    rcases (hmemc v b q).1 hqc with h1 | ⟨rfl, _⟩
    · exact h.availChain tid q hq v b h1
    · exact h.ownAvail _ hpo tid hq
  · intro q hq; exact h.ownLt q (List.mem_cons_of_mem _ hq)
  · intro q hq v b hqc
    rcases (hmemc v b q).1 hqc with h1 | ⟨rfl, _⟩
    · exact h.ownChain q (List.mem_cons_of_mem _ hq) v b h1
    · exact (List.nodup_cons.1 h.ownNodup).1 hq
  · intro q hq; exact h.ownAvail q (List.mem_cons_of_mem _ hq)
  · intro q x
    unfold Reg
    rw [hmemc]
    constructor
    · rintro ⟨h1, h2 | ⟨rfl, _⟩⟩
      · exact .inl ⟨h1, h2⟩
      · right; refine ⟨rfl, ?_⟩
        have h1' : t.mem q = some x := h1
        rw [hm] at h1'; exact (Option.some.inj h1').symm
    · rintro (⟨h1, h2⟩ | ⟨rfl, rfl⟩)
      · exact ⟨h1, .inl h2⟩
      · exact ⟨hm, .inr ⟨rfl, rfl, rfl⟩⟩

theorem push_uniq {t : UTable N} {p : Nat} {nd : N}
    (hm : t.mem p = some nd) (hu : Uniq t)
    (hn : ∀ c ∈ t.chains (TNode.var nd) (hash nd % NBUCKETS), ∀ nc, t.mem c = some nc →
      TNode.eqv nd nc = false) :
    Uniq (push (TNode.var nd) (hash nd % NBUCKETS) p t) := by
  intro v b
  by_cases hv : v = TNode.var nd
  · subst hv
    by_cases hb : b = hash nd % NBUCKETS
    · subst hb
      simp only [push, upd_same]
      refine List.pairwise_cons.2 ⟨?_, hu _ _⟩
      intro c hc x y hx hy
      have hx' : t.mem p = some x := hx
      rw [hm] at hx'; cases hx'
      exact hn c hc y hy
    · simp only [push, upd_same, upd_ne _ _ _ hb]; exact hu _ _
  · simp only [push, upd_ne _ _ _ hv]; exact hu _ _

/-- Complete specification of `lookup` on an owned node. -/
theorem lookup_spec {t : UTable N} {own} {p : Nat} {nd : N} (h : TInv hash t (p :: own)) (hu : Uniq t)
    (hm : t.mem p = some nd) (hv0 : 0 ≤ TNode.var nd) (hv1 : TNode.var nd < (NQUBITS : Int)) (tid : Nat) :
    ∃ c t', lookup hash tid p t = .ok (c, t') ∧ TInv hash t' own ∧ Uniq t' ∧ Ext hash t t' ∧
      ∃ nc, Reg hash t' c nc ∧ (nc = nd ∧ c = p ∨ TNode.eqv nd nc = true ∧ Reg hash t c nc) ∧
        ∀ q x, Reg hash t' q x → Reg hash t q x ∨ (q = c ∧ x = nd) := by
  have hnb : ¬ (TNode.var nd < 0 ∨ (NQUBITS : Int) ≤ TNode.var nd) := by omega
  rcases scan_spec h nd (TNode.var nd) (hash nd % NBUCKETS) _ (fun _ hp => hp) with
    ⟨c, nc, h1, h2, h3, h4⟩ | ⟨h1, h2⟩
  · refine ⟨c, returnNode tid p t, by simp [lookup, hm, hnb, h1], return_inv h tid, return_uniq h tid hu,
      fun q x hq => (return_reg h tid q x).2 hq, ?_⟩
    obtain ⟨nc', hr, _⟩ := h.reg h2
    have : nc' = nc := by have := hr.1; rw [h3] at this; exact (Option.some.inj this).symm
    subst this
    exact ⟨nc', (return_reg h tid c nc').2 hr, .inr ⟨h4, hr⟩, fun q x hq => .inl ((return_reg h tid q x).1 hq)⟩
  · obtain ⟨hi, hr⟩ := push_spec h hm hv0 hv1
    refine ⟨p, _, by simp only [lookup, hm, hnb, h1, if_false], hi, push_uniq hm hu h2,
      fun q x hq => (hr q x).2 (.inl hq), nd, (hr p nd).2 (.inr ⟨rfl, rfl⟩), .inl ⟨rfl, rfl⟩,
      fun q x hq => (hr q x).1 hq⟩

end UTable
end QDD
