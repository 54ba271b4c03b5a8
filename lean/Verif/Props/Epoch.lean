import Verif.Conc.Epoch
import Mathlib.Tactic.SplitIfs
import Mathlib.Tactic.ByContra
/-!
# C43: epoch reclamation never frees an address a reader may hold
-/
set_option linter.unusedVariables false
set_option linter.unusedSimpArgs false
set_option linter.unusedSectionVars false

namespace QDD.Props
open QDD.Epoch

/-- Thread `t` was inside when retirement `id` was called and has not begun to leave since. -/
def hold (id t : Nat) : List Ev → Prop
  | [] => False
  | .retired _ _ i :: tr => if i = id then 0 < guards t tr else hold id t tr
  | .exiting u :: tr => u ≠ t ∧ hold id t tr
  | _ :: tr => hold id t tr

/-- A label is safe: whoever may hold one of its addresses announced an epoch not after the label's. -/
def LabOk (tr : List Ev) (loc : Nat → WithTop Nat) (l : Label) : Prop :=
  ∀ n, n ∈ l.nodes → ∀ t, hold n.2 t tr → loc t ≤ (l.epoch : WithTop Nat)

def PcOk (tr : List Ev) (s : St) (u : Nat) : Prop :=
  match s.pc u with
  | .ent1 e => e ≤ s.cur
  | .mark0 x id => id < s.nextId
  | .mark1 x id e => id < s.nextId ∧ e ≤ s.cur ∧ (∀ t, hold id t tr → s.loc t ≤ (e : WithTop Nat)) ∧ ∀ l, l ∈ s.labels u → l.epoch ≤ e
  | .exit2 todo oldest => ∀ l, l ∈ s.labels u → ∀ n, n ∈ l.nodes → ∀ t, hold n.2 t tr → t ∈ todo ∨ oldest ≤ s.loc t
  | .exit3 oldest kept rest => s.labels u = kept ++ rest ∧
      ∀ l, l ∈ s.labels u → ∀ n, n ∈ l.nodes → ∀ t, hold n.2 t tr → oldest ≤ s.loc t
  | _ => True

structure EOk (tr : List Ev) (s : St) : Prop where
  guards : ∀ t, guards t tr = s.depth t
  reg : ∀ t, 0 < s.depth t → t ∈ s.reg ∧ ∃ b : Nat, s.loc t = b ∧ b ≤ s.cur
  one : ∀ t, s.depth t ≤ 1
  pcreg : ∀ t, s.pc t ≠ .rest → t ∈ s.reg
  out : ∀ t, (s.pc t = .exit0 ∨ s.pc t = .exit1 ∨ ∃ a b, s.pc t = .exit2 a b) → s.depth t = 0
  buf : ∀ t, s.buf t = none
  ids : ∀ id, s.nextId ≤ id → ∀ t, ¬ hold id t tr
  inside : ∀ id t, hold id t tr → 0 < s.depth t
  labs : ∀ u l, l ∈ s.labels u → LabOk tr s.loc l ∧ l.epoch ≤ s.cur ∧ ∀ n, n ∈ l.nodes → n.2 < s.nextId
  pc : ∀ u, PcOk tr s u


theorem frame {tr tr' : List Ev} {s s' : St} (h : EOk tr s) (hcur : s.cur ≤ s'.cur) (hnid : s.nextId ≤ s'.nextId)
    (H : ∀ id, id < s.nextId → ∀ t, hold id t tr' → hold id t tr ∧ s'.loc t = s.loc t) (u : Nat)
    (hpc : s'.pc u = s.pc u) (hlab : s'.labels u = s.labels u) :
    PcOk tr' s' u ∧ ∀ l, l ∈ s'.labels u → LabOk tr' s'.loc l ∧ l.epoch ≤ s'.cur ∧ ∀ n, n ∈ l.nodes → n.2 < s'.nextId := by
  refine ⟨?_, fun l hl => ?_⟩
  · have hp := h.pc u
    unfold PcOk at hp ⊢
    rw [hpc, hlab]
    cases hq : s.pc u <;> simp only [hq] at hp ⊢
    · omega
    · omega
    · obtain ⟨h1, h2, h3, h4⟩ := hp
      refine ⟨by omega, by omega, fun t ht => ?_, h4⟩
      obtain ⟨g1, g2⟩ := H _ h1 t ht
      rw [g2]; exact h3 t g1
    · intro l hl n hn t ht
      obtain ⟨g1, g2⟩ := H _ ((h.labs u l hl).2.2 n hn) t ht
      rw [g2]; exact hp l hl n hn t g1
    · refine ⟨hp.1, ?_⟩
      intro l hl n hn t ht
      obtain ⟨g1, g2⟩ := H _ ((h.labs u l hl).2.2 n hn) t ht
      rw [g2]; exact hp.2 l hl n hn t g1
  · rw [hlab] at hl
    obtain ⟨h1, h2, h3⟩ := h.labs u l hl
    refine ⟨fun n hn t ht => ?_, by omega, fun n hn => by have := h3 n hn; omega⟩
    obtain ⟨g1, g2⟩ := H _ (h3 n hn) t ht
    rw [g2]; exact h1 n hn t g1

theorem silent {tr : List Ev} {s s' : St} (h : EOk tr s) (t : Nat) (hcur : s.cur ≤ s'.cur) (hreg : s'.reg = s.reg)
    (hloc : s'.loc = s.loc) (hbuf : s'.buf = s.buf) (hdep : s'.depth = s.depth) (hid : s'.nextId = s.nextId)
    (hpc : ∀ u, u ≠ t → s'.pc u = s.pc u) (hlab : ∀ u, u ≠ t → s'.labels u = s.labels u)
    (hl : ∀ l, l ∈ s'.labels t → LabOk tr s.loc l ∧ l.epoch ≤ s'.cur ∧ ∀ n, n ∈ l.nodes → n.2 < s.nextId)
    (ht : t ∈ s.reg) (hout : (s'.pc t = .exit0 ∨ s'.pc t = .exit1 ∨ ∃ a b, s'.pc t = .exit2 a b) → s.depth t = 0)
    (hp : PcOk tr s' t) : EOk tr s' := by
  have fr := fun u (hu : u ≠ t) => frame (s' := s') h hcur hid.ge (fun id _ t ht => ⟨ht, by rw [hloc]⟩) u (hpc u hu) (hlab u hu)
  refine ⟨by rw [hdep]; exact h.guards, ?_, by rw [hdep]; exact h.one, ?_, ?_, by rw [hbuf]; exact h.buf,
    by rw [hid]; exact h.ids, by rw [hdep]; exact h.inside, ?_, ?_⟩
  · intro u hu
    rw [hdep] at hu
    obtain ⟨h1, b, h2, h3⟩ := h.reg u hu
    rw [hreg, hloc]
    exact ⟨h1, b, h2, by omega⟩
  · intro u hu
    rw [hreg]
    by_cases hut : u = t
    · rw [hut]; exact ht
    · rw [hpc u hut] at hu; exact h.pcreg u hu
  · intro u hu
    rw [hdep]
    by_cases hut : u = t
    · subst hut; exact hout hu
    · rw [hpc u hut] at hu; exact h.out u hu
  · intro u l hul
    by_cases hut : u = t
    · subst hut; rw [hloc, hid]; exact hl l hul
    · exact (fr u hut).2 l hul
  · intro u
    by_cases hut : u = t
    · subst hut; exact hp
    · exact (fr u hut).1

theorem update_ne {α : Type} (f : Nat → α) (t : Nat) (v : α) (u : Nat) (h : u ≠ t) : Function.update f t v u = f u :=
  Function.update_of_ne h _ _

theorem eok_init : EOk [] Epoch.init := by
  refine ⟨fun _ => rfl, fun t h => ?_, fun _ => Nat.zero_le _, fun t h => (h rfl).elim, fun t h => rfl, fun _ => rfl,
    fun _ _ _ h => h, fun _ _ h => h.elim, fun u l h => ?_, fun u => trivial⟩
  · exact absurd h (Nat.lt_irrefl 0)
  · cases h

/-- Events other than a retirement of `id` and departures keep `hold`. -/
theorem hold_freed (id t : Nat) (ns : List (Nat × Nat)) (tr : List Ev) :
    hold id t ((ns.map fun n => Ev.freed n.1 n.2).reverse ++ tr) ↔ hold id t tr := by
  induction ns generalizing tr with
  | nil => rfl
  | cons n ns ih => rw [List.map_cons, List.reverse_cons, List.append_assoc, ih]; rfl

theorem guards_freed (t : Nat) (ns : List (Nat × Nat)) (tr : List Ev) :
    Epoch.guards t ((ns.map fun n => Ev.freed n.1 n.2).reverse ++ tr) = Epoch.guards t tr := by
  induction ns generalizing tr with
  | nil => rfl
  | cons n ns ih => rw [List.map_cons, List.reverse_cons, List.append_assoc, ih]; rfl

theorem wellUsed_freed (ns : List (Nat × Nat)) (tr : List Ev) :
    WellUsed ((ns.map fun n => Ev.freed n.1 n.2).reverse ++ tr) ↔ WellUsed tr := by
  induction ns generalizing tr with
  | nil => rfl
  | cons n ns ih => rw [List.map_cons, List.reverse_cons, List.append_assoc, ih]; rfl

theorem addLabel_mem {ls : List Label} {x id e : Nat} {l : Label} (h : l ∈ addLabel ls x id e) :
    l ∈ ls ∨ (l.epoch = e ∧ ∀ n, n ∈ l.nodes → n = (x, id) ∨ ∃ l', l' ∈ ls ∧ n ∈ l'.nodes) := by
  unfold addLabel at h
  split at h
  · rename_i l0 ls
    split at h
    · rcases List.mem_cons.mp h with rfl | h
      · right
        refine ⟨rfl, fun n hn => ?_⟩
        rcases List.mem_append.mp hn with hn | hn
        · exact Or.inr ⟨l0, List.mem_cons_self, hn⟩
        · exact Or.inl (List.mem_singleton.mp hn)
      · exact Or.inl (List.mem_cons_of_mem _ h)
    · rcases List.mem_cons.mp h with rfl | h
      · exact Or.inr ⟨rfl, fun n hn => Or.inl (List.mem_singleton.mp hn)⟩
      · exact Or.inl h
  · rcases List.mem_cons.mp h with rfl | h
    · exact Or.inr ⟨rfl, fun n hn => Or.inl (List.mem_singleton.mp hn)⟩
    · cases h

/-- The step lemma: the invariant is kept, and no freed address is held. -/
theorem eok_step {thr : Nat} {tr es : List Ev} {s s' : St} (h : EOk tr s) (st : Step thr false s es s')
    (wu : WellUsed (es ++ tr)) :
    EOk (es ++ tr) s' ∧ ∀ x id, Ev.freed x id ∈ es → ∀ t, ¬ hold id t tr := by
  cases st with
  | @register t v hp hr =>
    refine ⟨?_, fun _ _ h => by cases h⟩
    have hd : s.depth t = 0 := by
      by_contra hne
      exact hr (h.reg t (Nat.pos_of_ne_zero hne)).1
    have H : ∀ id, id < s.nextId → ∀ u, hold id u tr → hold id u tr ∧ Function.update s.loc t v u = s.loc u := by
      intro id _ u hu
      refine ⟨hu, update_ne _ _ _ _ ?_⟩
      rintro rfl
      have := h.inside id u hu; omega
    have fr := fun u => frame (tr' := tr) (s' := { s with reg := s.reg ++ [t], loc := Function.update s.loc t v }) h le_rfl le_rfl H u rfl rfl
    refine ⟨h.guards, fun u hu => ?_, h.one, fun u hu => List.mem_append_left _ (h.pcreg u hu), h.out, h.buf, h.ids, h.inside,
      fun u => (fr u).2, fun u => (fr u).1⟩
    obtain ⟨h1, h2⟩ := h.reg u hu
    refine ⟨List.mem_append_left _ h1, ?_⟩
    have : u ≠ t := by rintro rfl; exact hr h1
    simp only [update_ne _ _ _ _ this]; exact h2
  | @drop t hp hr hb =>
    refine ⟨?_, fun _ _ h => by simp at h⟩
    have hd : s.depth t = 0 := by rw [← h.guards]; exact wu.1
    have H : ∀ id, id < s.nextId → ∀ u, hold id u (.dropped t :: tr) → hold id u tr ∧ Function.update s.loc t ⊤ u = s.loc u := by
      intro id _ u hu
      refine ⟨hu, update_ne _ _ _ _ ?_⟩
      rintro rfl
      have := h.inside id u hu; omega
    have fr := fun u => frame (tr' := .dropped t :: tr) (s' := { s with loc := Function.update s.loc t ⊤ }) h le_rfl le_rfl H u rfl rfl
    refine ⟨h.guards, fun u hu => ?_, h.one, h.pcreg, h.out, h.buf, h.ids, h.inside,
      fun u => (fr u).2, fun u => (fr u).1⟩
    obtain ⟨h1, h2⟩ := h.reg u hu
    refine ⟨h1, ?_⟩
    have : u ≠ t := by rintro rfl; simp only at hu; omega
    simp only [update_ne _ _ _ _ this]; exact h2
  | @enter t hp hr =>
    refine ⟨silent h t le_rfl rfl rfl rfl rfl rfl (fun u hu => update_ne _ _ _ _ hu) (fun _ _ => rfl) (h.labs t) hr ?_ ?_, fun _ _ h => by cases h⟩
    · simp [St.setPc]
    · simp [PcOk, St.setPc]
  | @ent0 t hp =>
    refine ⟨silent h t le_rfl rfl rfl rfl rfl rfl (fun u hu => update_ne _ _ _ _ hu) (fun _ _ => rfl) (h.labs t)
      (h.pcreg t (by rw [hp]; simp)) ?_ ?_, fun _ _ h => by cases h⟩
    · simp [St.setPc]
    · simp [PcOk, St.setPc]
  | @ent1 t e hp hb =>
    refine ⟨?_, fun _ _ h => by simp at h⟩
    have hd : s.depth t = 0 := by rw [← h.guards]; exact wu.1
    have he : e ≤ s.cur := by have := h.pc t; simp only [PcOk, hp] at this; exact this
    have hreg : t ∈ s.reg := h.pcreg t (by rw [hp]; simp)
    have H : ∀ id, id < s.nextId → ∀ u, hold id u (.entered t :: tr) → hold id u tr ∧ Function.update s.loc t (e : WithTop Nat) u = s.loc u := by
      intro id _ u hu
      refine ⟨hu, update_ne _ _ _ _ ?_⟩
      rintro rfl
      have := h.inside id u hu; omega
    have fr := fun u hu => frame (tr' := .entered t :: tr) (s' := { s with loc := Function.update s.loc t (e : WithTop Nat), depth := Function.update s.depth t (s.depth t + 1), pc := Function.update s.pc t .rest }) h le_rfl le_rfl H u (update_ne _ _ _ _ hu) rfl
    refine ⟨fun u => ?_, fun u hu => ?_, fun u => ?_, fun u hu => ?_, fun u hu => ?_, h.buf, h.ids, fun id u hu => ?_, fun u l hl => ?_, fun u => ?_⟩
    · show Epoch.guards u tr + (if t = u then 1 else 0) = Function.update s.depth t _ u
      rw [h.guards]
      by_cases hut : u = t
      · subst hut; simp
      · rw [update_ne _ _ _ _ hut, if_neg (Ne.symm hut)]; rfl
    · by_cases hut : u = t
      · subst hut; exact ⟨hreg, e, by simp, he⟩
      · simp only [update_ne _ _ _ _ hut] at hu ⊢; exact h.reg u hu
    · by_cases hut : u = t
      · subst hut; simp [hd]
      · simp only [update_ne _ _ _ _ hut]; exact h.one u
    · by_cases hut : u = t
      · subst hut; exact hreg
      · simp only [update_ne _ _ _ _ hut] at hu; exact h.pcreg u hu
    · by_cases hut : u = t
      · subst hut; simp at hu
      · simp only [update_ne _ _ _ _ hut] at hu ⊢; exact h.out u hu
    · have := h.inside id u hu
      by_cases hut : u = t
      · subst hut; simp
      · simp only [update_ne _ _ _ _ hut]; exact this
    · exact (frame (tr' := .entered t :: tr) (s' := { s with loc := Function.update s.loc t (e : WithTop Nat), depth := Function.update s.depth t (s.depth t + 1) }) h le_rfl le_rfl H u rfl rfl).2 l hl
    · by_cases hut : u = t
      · subst hut; simp [PcOk]
      · exact (fr u hut).1
  | ent1_buffered ht => cases ht
  | @flush t e hb => rw [h.buf] at hb; cases hb
  | @mark t x hp hr =>
    refine ⟨?_, fun _ _ h => by simp at h⟩
    have H : ∀ id, id < s.nextId → ∀ u, hold id u (.retired t x s.nextId :: tr) → hold id u tr ∧ s.loc u = s.loc u := by
      intro id hid u hu
      rw [hold, if_neg (by omega)] at hu
      exact ⟨hu, rfl⟩
    have fr := fun u hu => frame (tr' := .retired t x s.nextId :: tr) (s' := { s with nextId := s.nextId + 1, pc := Function.update s.pc t (.mark0 x s.nextId) }) h le_rfl (Nat.le_succ _) H u (update_ne _ _ _ _ hu) rfl
    refine ⟨h.guards, h.reg, h.one, fun u hu => ?_, fun u hu => ?_, h.buf, fun id hid u hu => ?_, fun id u hu => ?_, fun u l hl => ?_, fun u => ?_⟩
    · by_cases hut : u = t
      · subst hut; exact hr
      · simp only [update_ne _ _ _ _ hut] at hu; exact h.pcreg u hu
    · by_cases hut : u = t
      · subst hut; simp at hu
      · simp only [update_ne _ _ _ _ hut] at hu; exact h.out u hu
    · simp only at hid
      change hold id u (.retired t x s.nextId :: tr) at hu
      rw [hold, if_neg (by omega)] at hu
      exact h.ids id (by omega) u hu
    · change hold id u (.retired t x s.nextId :: tr) at hu
      rw [hold] at hu
      split at hu
      · rw [h.guards] at hu; exact hu
      · exact h.inside id u hu
    · exact (frame (tr' := .retired t x s.nextId :: tr) (s' := { s with nextId := s.nextId + 1 }) h le_rfl (Nat.le_succ _) H u rfl rfl).2 l hl
    · by_cases hut : u = t
      · subst hut; simp [PcOk]
      · exact (fr u hut).1
  | @mark0 t x id hp =>
    have hpo := h.pc t
    simp only [PcOk, hp] at hpo
    refine ⟨silent h t le_rfl rfl rfl rfl rfl rfl (fun u hu => update_ne _ _ _ _ hu) (fun _ _ => rfl) (h.labs t)
      (h.pcreg t (by rw [hp]; simp)) ?_ ?_, fun _ _ h => by cases h⟩
    · simp [St.setPc]
    · simp only [PcOk, St.setPc, Function.update_self]
      refine ⟨hpo, le_rfl, fun u hu => ?_, fun l hl => (h.labs t l hl).2.1⟩
      obtain ⟨-, b, h2, h3⟩ := h.reg u (h.inside id u hu)
      rw [h2]; exact_mod_cast h3
  | @mark1 t x id e hp =>
    have hpo := h.pc t
    simp only [PcOk, hp] at hpo
    obtain ⟨g1, g2, g3, g4⟩ := hpo
    refine ⟨silent h t le_rfl rfl rfl rfl rfl rfl (fun u hu => update_ne _ _ _ _ hu) (fun u hu => update_ne _ _ _ _ hu) (fun l hl => ?_)
      (h.pcreg t (by rw [hp]; simp)) ?_ ?_, fun _ _ h => by cases h⟩
    · simp only [Function.update_self] at hl
      rcases addLabel_mem hl with hl | ⟨h1, h2⟩
      · exact h.labs t l hl
      · refine ⟨fun n hn u hu => ?_, by rw [h1]; exact g2, fun n hn => ?_⟩
        · rw [h1]
          rcases h2 n hn with rfl | ⟨l', hl', hn'⟩
          · exact g3 u hu
          · exact ((h.labs t l' hl').1 n hn' u hu).trans (by exact_mod_cast g4 l' hl')
        · rcases h2 n hn with rfl | ⟨l', hl', hn'⟩
          · exact g1
          · exact (h.labs t l' hl').2.2 n hn'
    · simp
    · simp [PcOk]
  | @exit t hp hd =>
    refine ⟨?_, fun _ _ h => by simp at h⟩
    have hone := h.one t
    have hr := (h.reg t hd).1
    have H : ∀ id, id < s.nextId → ∀ u, hold id u (.exiting t :: tr) → hold id u tr ∧ s.loc u = s.loc u :=
      fun id _ u hu => ⟨hu.2, rfl⟩
    have fr := fun u hu => frame (tr' := .exiting t :: tr) (s' := { s with depth := Function.update s.depth t (s.depth t - 1), pc := Function.update s.pc t .exit0 }) h le_rfl le_rfl H u (update_ne _ _ _ _ hu) rfl
    refine ⟨fun u => ?_, fun u hu => ?_, fun u => ?_, fun u hu => ?_, fun u hu => ?_, h.buf, fun id hid u hu => h.ids id hid u hu.2, fun id u hu => ?_, fun u l hl => ?_, fun u => ?_⟩
    · show Epoch.guards u tr - (if t = u then 1 else 0) = Function.update s.depth t _ u
      rw [h.guards]
      by_cases hut : u = t
      · subst hut; simp
      · rw [update_ne _ _ _ _ hut, if_neg (Ne.symm hut)]; rfl
    · by_cases hut : u = t
      · subst hut; simp at hu; omega
      · simp only [update_ne _ _ _ _ hut] at hu; exact h.reg u hu
    · by_cases hut : u = t
      · subst hut; simp; omega
      · simp only [update_ne _ _ _ _ hut]; exact h.one u
    · by_cases hut : u = t
      · subst hut; exact hr
      · simp only [update_ne _ _ _ _ hut] at hu; exact h.pcreg u hu
    · by_cases hut : u = t
      · subst hut; simp; omega
      · simp only [update_ne _ _ _ _ hut] at hu ⊢; exact h.out u hu
    · obtain ⟨h1, h2⟩ := hu
      simp only [update_ne _ _ _ _ (Ne.symm h1)]; exact h.inside id u h2
    · exact (frame (tr' := .exiting t :: tr) (s' := { s with depth := Function.update s.depth t (s.depth t - 1) }) h le_rfl le_rfl H u rfl rfl).2 l hl
    · by_cases hut : u = t
      · subst hut; simp [PcOk]
      · exact (fr u hut).1
  | @exitReadonly t hp hd =>
    refine ⟨?_, fun _ _ h => by simp at h⟩
    have hone := h.one t
    have H : ∀ id, id < s.nextId → ∀ u, hold id u (.exiting t :: tr) → hold id u tr ∧ s.loc u = s.loc u :=
      fun id _ u hu => ⟨hu.2, rfl⟩
    have fr := fun u => frame (tr' := .exiting t :: tr) (s' := { s with depth := Function.update s.depth t (s.depth t - 1) }) h le_rfl le_rfl H u rfl rfl
    refine ⟨fun u => ?_, fun u hu => ?_, fun u => ?_, h.pcreg, fun u hu => ?_, h.buf, fun id hid u hu => h.ids id hid u hu.2, fun id u hu => ?_, fun u => (fr u).2, fun u => (fr u).1⟩
    · show Epoch.guards u tr - (if t = u then 1 else 0) = Function.update s.depth t _ u
      rw [h.guards]
      by_cases hut : u = t
      · subst hut; simp
      · rw [update_ne _ _ _ _ hut, if_neg (Ne.symm hut)]; rfl
    · by_cases hut : u = t
      · subst hut; simp at hu; omega
      · simp only [update_ne _ _ _ _ hut] at hu; exact h.reg u hu
    · by_cases hut : u = t
      · subst hut; simp; omega
      · simp only [update_ne _ _ _ _ hut]; exact h.one u
    · by_cases hut : u = t
      · subst hut; simp; omega
      · simp only [update_ne _ _ _ _ hut]; exact h.out u hu
    · obtain ⟨h1, h2⟩ := hu
      simp only [update_ne _ _ _ _ (Ne.symm h1)]; exact h.inside id u h2
  | @exit0_bump t hp hc =>
    refine ⟨silent h t (Nat.le_succ _) rfl rfl rfl rfl rfl (fun u hu => update_ne _ _ _ _ hu) (fun _ _ => rfl)
      (fun l hl => ⟨(h.labs t l hl).1, (h.labs t l hl).2.1.trans (Nat.le_succ _), (h.labs t l hl).2.2⟩)
      (h.pcreg t (by rw [hp]; simp)) (fun _ => h.out t (Or.inl hp)) ?_, fun _ _ h => by cases h⟩
    simp [PcOk]
  | @exit0_no t hp hc =>
    refine ⟨silent h t le_rfl rfl rfl rfl rfl rfl (fun u hu => update_ne _ _ _ _ hu) (fun _ _ => rfl) (h.labs t)
      (h.pcreg t (by rw [hp]; simp)) (fun _ => h.out t (Or.inl hp)) ?_, fun _ _ h => by cases h⟩
    simp [PcOk, St.setPc]
  | @exit1_below t hp hc =>
    refine ⟨silent h t le_rfl rfl rfl rfl rfl rfl (fun u hu => update_ne _ _ _ _ hu) (fun _ _ => rfl) (h.labs t)
      (h.pcreg t (by rw [hp]; simp)) ?_ ?_, fun _ _ h => by cases h⟩
    · simp [St.setPc]
    · simp [PcOk, St.setPc]
  | @exit1_empty t hp hc he =>
    refine ⟨silent h t le_rfl rfl rfl rfl rfl rfl (fun u hu => update_ne _ _ _ _ hu) (fun _ _ => rfl) (h.labs t)
      (h.pcreg t (by rw [hp]; simp)) ?_ ?_, fun _ _ h => by cases h⟩
    · simp
    · simp [PcOk]
  | @exit1_scan t hp hc he hb =>
    refine ⟨?_, fun _ _ h => by cases h⟩
    have hd : s.depth t = 0 := h.out t (Or.inr (Or.inl hp))
    have hr : t ∈ s.reg := h.pcreg t (by rw [hp]; simp)
    have H : ∀ id, id < s.nextId → ∀ u, hold id u tr → hold id u tr ∧ Function.update s.loc t ⊤ u = s.loc u := by
      intro id _ u hu
      refine ⟨hu, update_ne _ _ _ _ ?_⟩
      rintro rfl
      have := h.inside id u hu; omega
    have fr := fun u hu => frame (tr' := tr) (s' := { s with loc := Function.update s.loc t ⊤, pc := Function.update s.pc t (.exit2 s.reg ⊤) }) h le_rfl le_rfl H u (update_ne _ _ _ _ hu) rfl
    refine ⟨h.guards, fun u hu => ?_, h.one, fun u hu => ?_, fun u hu => ?_, h.buf, h.ids, h.inside, fun u l hl => ?_, fun u => ?_⟩
    · obtain ⟨h1, h2⟩ := h.reg u hu
      refine ⟨h1, ?_⟩
      have : u ≠ t := by rintro rfl; simp only at hu; omega
      simp only [update_ne _ _ _ _ this]; exact h2
    · by_cases hut : u = t
      · subst hut; exact hr
      · simp only [update_ne _ _ _ _ hut] at hu; exact h.pcreg u hu
    · by_cases hut : u = t
      · subst hut; exact hd
      · simp only [update_ne _ _ _ _ hut] at hu; exact h.out u hu
    · exact (frame (tr' := tr) (s' := { s with loc := Function.update s.loc t ⊤ }) h le_rfl le_rfl H u rfl rfl).2 l hl
    · by_cases hut : u = t
      · subst hut
        simp only [PcOk, Function.update_self]
        intro l hl n hn v hv
        exact Or.inl (h.reg v (h.inside _ v hv)).1
      · exact (fr u hut).1
  | @exit2 t u todo oldest hp =>
    have hpo := h.pc t
    simp only [PcOk, hp] at hpo
    refine ⟨silent h t le_rfl rfl rfl rfl rfl rfl (fun u hu => update_ne _ _ _ _ hu) (fun _ _ => rfl) (h.labs t)
      (h.pcreg t (by rw [hp]; simp)) (fun _ => h.out t (Or.inr (Or.inr ⟨_, _, hp⟩))) ?_, fun _ _ h => by cases h⟩
    simp only [PcOk, St.setPc, Function.update_self]
    intro l hl n hn v hv
    rcases hpo l hl n hn v hv with hm | hle
    · rcases List.mem_cons.mp hm with rfl | hm
      · right
        split
        · exact le_rfl
        · rename_i hge; exact not_lt.mp hge
      · exact Or.inl hm
    · right
      split
      · rename_i hlt; exact hlt.le.trans hle
      · exact hle
  | @exit2_end t oldest hp =>
    have hpo := h.pc t
    simp only [PcOk, hp] at hpo
    refine ⟨silent h t le_rfl rfl rfl rfl rfl rfl (fun u hu => update_ne _ _ _ _ hu) (fun _ _ => rfl) (h.labs t)
      (h.pcreg t (by rw [hp]; simp)) ?_ ?_, fun _ _ h => by cases h⟩
    · simp [St.setPc]
    · simp only [PcOk, St.setPc, Function.update_self, List.nil_append]
      refine ⟨trivial, fun l hl n hn v hv => ?_⟩
      rcases hpo l hl n hn v hv with hm | hle
      · cases hm
      · exact hle
  | @exit3_free t oldest kept l rest hp hlt =>
    have hpo := h.pc t
    simp only [PcOk, hp] at hpo
    obtain ⟨g1, g2⟩ := hpo
    have hlmem : l ∈ s.labels t := by rw [g1]; simp
    have hsub : ∀ l', l' ∈ kept ++ rest → l' ∈ s.labels t := by
      intro l' hl'
      rw [g1]
      rcases List.mem_append.mp hl' with h | h
      · exact List.mem_append_left _ h
      · exact List.mem_append_right _ (List.mem_cons_of_mem _ h)
    have hfree : ∀ n, n ∈ l.nodes → ∀ v, ¬ hold n.2 v tr := by
      intro n hn v hv
      have h1 := (h.labs t l hlmem).1 n hn v hv
      have h2 := g2 l hlmem n hn v hv
      exact absurd (lt_of_le_of_lt h1 hlt) (not_lt.mpr h2)
    have he : EOk tr { s with labels := Function.update s.labels t (kept ++ rest), pc := Function.update s.pc t (.exit3 oldest kept rest) } := by
      refine silent h t le_rfl rfl rfl rfl rfl rfl (fun u hu => update_ne _ _ _ _ hu) (fun u hu => update_ne _ _ _ _ hu) (fun l' hl' => ?_)
        (h.pcreg t (by rw [hp]; simp)) ?_ ?_
      · simp only [Function.update_self] at hl'; exact h.labs t l' (hsub l' hl')
      · simp
      · simp only [PcOk, Function.update_self]
        exact ⟨trivial, fun l' hl' => g2 l' (hsub l' hl')⟩
    refine ⟨⟨fun u => by rw [guards_freed]; exact he.guards u, he.reg, he.one, he.pcreg, he.out, he.buf,
      fun id hid u hu => he.ids id hid u ((hold_freed _ _ _ _).mp hu), fun id u hu => he.inside id u ((hold_freed _ _ _ _).mp hu),
      fun u l' hl' => ?_, fun u => ?_⟩, fun x id hx u hu => ?_⟩
    · exact (frame (tr' := (l.nodes.map fun n => Ev.freed n.1 n.2).reverse ++ tr) he le_rfl le_rfl
        (fun id _ u hu => ⟨(hold_freed _ _ _ _).mp hu, rfl⟩) u rfl rfl).2 l' hl'
    · exact (frame (tr' := (l.nodes.map fun n => Ev.freed n.1 n.2).reverse ++ tr) he le_rfl le_rfl
        (fun id _ u hu => ⟨(hold_freed _ _ _ _).mp hu, rfl⟩) u rfl rfl).1
    · rw [List.mem_reverse, List.mem_map] at hx
      obtain ⟨n, hn, heq⟩ := hx
      cases heq
      exact hfree n hn u hu
  | @exit3_keep t oldest kept l rest hp hge =>
    have hpo := h.pc t
    simp only [PcOk, hp] at hpo
    refine ⟨silent h t le_rfl rfl rfl rfl rfl rfl (fun u hu => update_ne _ _ _ _ hu) (fun _ _ => rfl) (h.labs t)
      (h.pcreg t (by rw [hp]; simp)) ?_ ?_, fun _ _ h => by cases h⟩
    · simp [St.setPc]
    · simp only [PcOk, St.setPc, Function.update_self]
      exact ⟨by rw [hpo.1]; simp, hpo.2⟩
  | @exit3_end t oldest kept hp =>
    refine ⟨silent h t le_rfl rfl rfl rfl rfl rfl (fun u hu => update_ne _ _ _ _ hu) (fun _ _ => rfl) (h.labs t)
      (h.pcreg t (by rw [hp]; simp)) ?_ ?_, fun _ _ h => by cases h⟩
    · simp
    · simp [PcOk]


theorem wellUsed_append {a b : List Ev} (h : WellUsed (a ++ b)) : WellUsed b := by
  induction a with
  | nil => exact h
  | cons e a ih => cases e <;> first | exact ih h.2 | exact ih h

/-- The retirements in a trace. -/
def retIds : List Ev → List Nat
  | [] => []
  | .retired _ _ i :: tr => i :: retIds tr
  | _ :: tr => retIds tr

theorem retIds_append (a b : List Ev) : retIds (a ++ b) = retIds a ++ retIds b := by
  induction a with
  | nil => rfl
  | cons e a ih => cases e <;> simp [retIds, ih]

theorem retIds_mem {u x id : Nat} {tr : List Ev} (h : Ev.retired u x id ∈ tr) : id ∈ retIds tr := by
  induction tr with
  | nil => cases h
  | cons e tr ih =>
    rcases List.mem_cons.mp h with rfl | h'
    · simp [retIds]
    · cases e <;> simp [retIds, ih h']

theorem run_ids {thr : Nat} {tso : Bool} {tr : List Ev} {s : St} (r : Run thr tso tr s) :
    (retIds tr).Nodup ∧ ∀ id, id ∈ retIds tr → id < s.nextId := by
  induction r with
  | nil => exact ⟨List.nodup_nil, fun _ h => by cases h⟩
  | @step tr s es s' r st ih =>
    obtain ⟨h1, h2⟩ := ih
    have key : (retIds es = [] ∧ s'.nextId = s.nextId) ∨ (retIds es = [s.nextId] ∧ s'.nextId = s.nextId + 1) := by
      cases st <;> first
        | exact Or.inl ⟨rfl, rfl⟩
        | exact Or.inr ⟨rfl, rfl⟩
        | (left; refine ⟨?_, rfl⟩
           rename_i l _ _ _
           induction l.nodes with
           | nil => rfl
           | cons n ns ih => rw [List.map_cons, List.reverse_cons, retIds_append, ih]; rfl)
    rw [retIds_append]
    rcases key with ⟨e1, e2⟩ | ⟨e1, e2⟩
    · rw [e1, e2]; exact ⟨h1, h2⟩
    · rw [e1, e2]
      refine ⟨List.nodup_cons.mpr ⟨fun h => ?_, h1⟩, fun id hid => ?_⟩
      · have := h2 _ h; omega
      · rcases List.mem_cons.mp hid with rfl | h
        · omega
        · have := h2 _ h; omega

theorem run_eok {thr : Nat} {tr : List Ev} {s : St} (r : Run thr false tr s) (wu : WellUsed tr) : EOk tr s := by
  induction r with
  | nil => exact eok_init
  | step r st ih => exact (eok_step (ih (wellUsed_append wu)) st wu).1

theorem step_events {thr : Nat} {tso : Bool} {s s' : St} {es : List Ev} (st : Step thr tso s es s') :
    es.length ≤ 1 ∨ ∃ ns : List (Nat × Nat), es = (ns.map fun n => Ev.freed n.1 n.2).reverse := by
  cases st <;> first
    | exact Or.inl (Nat.zero_le _)
    | exact Or.inl (Nat.le_refl 1)
    | exact Or.inr ⟨_, rfl⟩

theorem hold_of_mem_freed {id t : Nat} {pre tr : List Ev} (h : ∀ e, e ∈ pre → ∃ x i, e = Ev.freed x i) :
    hold id t (pre ++ tr) ↔ hold id t tr := by
  induction pre with
  | nil => rfl
  | cons e pre ih =>
    obtain ⟨x, i, rfl⟩ := h e List.mem_cons_self
    exact ih (fun e he => h e (List.mem_cons_of_mem _ he))

theorem run_safe {thr : Nat} {tr : List Ev} {s : St} (r : Run thr false tr s) (wu : WellUsed tr) :
    ∀ q x id p, tr = q ++ Ev.freed x id :: p → ∀ t, ¬ hold id t p := by
  induction r with
  | nil => intro q x id p h; simp at h
  | @step tr s es s' r st ih =>
    intro q x id p heq t
    have wu' := wellUsed_append wu
    obtain ⟨-, hs⟩ := eok_step (run_eok r wu') st wu
    rcases List.append_eq_append_iff.mp heq with ⟨c, h1, h2⟩ | ⟨c, h1, h2⟩
    · exact ih wu' c x id p h2 t
    · -- es = q ++ c, freed :: p = c ++ tr
      cases c with
      | nil =>
        simp at h2
        exact ih wu' [] x id p h2.symm t
      | cons e c =>
        simp only [List.cons_append, List.cons.injEq] at h2
        obtain ⟨rfl, rfl⟩ := h2
        have hm : Ev.freed x id ∈ es := by rw [h1]; simp
        rcases step_events st with hl | ⟨ns, hns⟩
        · have : c = [] := by
            rw [h1] at hl; simp at hl
            cases c with
            | nil => rfl
            | cons a c => simp at hl; omega
          subst this
          exact hs x id hm t
        · rw [hold_of_mem_freed]
          · exact hs x id hm t
          · intro e he
            have : e ∈ es := by rw [h1]; simp [he]
            rw [hns, List.mem_reverse, List.mem_map] at this
            obtain ⟨n, -, rfl⟩ := this
            exact ⟨_, _, rfl⟩

theorem hold_intro {id t u x : Nat} {m p : List Ev} (hg : 0 < Epoch.guards t p) (hm : id ∉ retIds m) (he : Ev.exiting t ∉ m) :
    hold id t (m ++ Ev.retired u x id :: p) := by
  induction m with
  | nil => simp [hold, hg]
  | cons e m ih =>
    have ih := ih (fun h => hm (by cases e <;> simp [retIds, h])) (fun h => he (List.mem_cons_of_mem _ h))
    cases e with
    | retired a b i =>
      simp only [List.cons_append, hold]
      rw [if_neg (by rintro rfl; exact hm (by simp [retIds]))]
      exact ih
    | exiting v =>
      refine ⟨?_, ih⟩
      rintro rfl
      exact he List.mem_cons_self
    | _ => exact ih

/-- **C43.** Under sequential consistency and with one guard at a time per thread, a retired address is
deleted only after every thread that was inside a guard when it was retired has left that guard. (Events newest
first: `p`, then the retirement, then `m`, then the deletion.) -/
theorem C43_safe_partial (thr : Nat) (tr : List Ev) (s : St) (r : Run thr false tr s) (wu : WellUsed tr)
    (q m p : List Ev) (u x x' id : Nat) (htr : tr = q ++ Ev.freed x id :: (m ++ Ev.retired u x' id :: p)) (t : Nat)
    (hin : 0 < guards t p) : Ev.exiting t ∈ m := by
  by_contra hne
  refine run_safe r wu q x id _ htr t (hold_intro hin ?_ hne)
  intro hmem
  have hnd := (run_ids r).1
  rw [htr, retIds_append] at hnd
  have hnd := (List.nodup_append.mp hnd).2.1
  simp only [retIds, retIds_append] at hnd
  exact (List.nodup_append.mp hnd).2.2 id hmem id List.mem_cons_self rfl

/-- Thread 0 is inside when thread 1 retires address 42; it leaves and comes back; then 42 is deleted. -/
theorem epoch_demo : ∃ s, Run 0 false
    ([] ++ ([] ++ ([.freed 42 0] ++ ([] ++ ([] ++ ([] ++ ([.entered 0] ++ ([] ++ ([] ++ ([.exiting 0] ++ ([] ++ ([] ++ ([.exiting 1] ++ ([] ++ ([] ++
      ([.retired 1 42 0] ++ ([.entered 1] ++ ([] ++ ([] ++ ([.entered 0] ++ ([] ++ ([] ++ ([] ++ ([] ++ [])))))))))))))))))))))))) s := by
  have r := Run.nil (thr := 0) (tso := false)
  have r := Run.step r (Step.register (t := 0) (v := ⊤) rfl (by decide))
  have r := Run.step r (Step.register (t := 1) (v := ⊤) rfl (by decide))
  have r := Run.step r (Step.enter (t := 0) rfl (by decide))
  have r := Run.step r (Step.ent0 (t := 0) rfl)
  have r := Run.step r (Step.ent1 (t := 0) rfl rfl)
  have r := Run.step r (Step.enter (t := 1) rfl (by decide))
  have r := Run.step r (Step.ent0 (t := 1) rfl)
  have r := Run.step r (Step.ent1 (t := 1) rfl rfl)
  have r := Run.step r (Step.mark (t := 1) (x := 42) rfl (by decide))
  have r := Run.step r (Step.mark0 (t := 1) rfl)
  have r := Run.step r (Step.mark1 (t := 1) rfl)
  have r := Run.step r (Step.exit (t := 1) rfl (by decide))
  have r := Run.step r (Step.exit0_bump (t := 1) rfl (by decide))
  have r := Run.step r (Step.exit1_scan (t := 1) rfl (by decide) (by decide) rfl)
  have r := Run.step r (Step.exitReadonly (t := 0) rfl (by decide))
  have r := Run.step r (Step.enter (t := 0) rfl (by decide))
  have r := Run.step r (Step.ent0 (t := 0) rfl)
  have r := Run.step r (Step.ent1 (t := 0) rfl rfl)
  have r := Run.step r (Step.exit2 (t := 1) rfl)
  have r := Run.step r (Step.exit2 (t := 1) rfl)
  have r := Run.step r (Step.exit2_end (t := 1) rfl)
  have r := Run.step r (Step.exit3_free (t := 1) rfl (by decide))
  have r := Run.step r (Step.exit3_end (t := 1) rfl)
  exact ⟨_, r⟩


/-- The demonstration run satisfies the hypotheses of `C43_safe_partial`, with thread 0 inside at the retirement. -/
example : WellUsed [.freed 42 0, .entered 0, .exiting 0, .exiting 1, .retired 1 42 0, .entered 1, .entered 0] ∧
    0 < guards 0 [Ev.entered 1, .entered 0] := by simp [WellUsed, guards]

/-- The restriction to one guard per thread is needed: with a nested guard (the second `enterEpoch`
overwrites the announced epoch) the address is deleted while thread 0, inside all along, may hold it. -/
theorem C43_nested_wrong : ∃ (m p : List Ev) (s : St), Run 0 false (.freed 42 0 :: (m ++ .retired 1 42 0 :: p)) s ∧
    0 < guards 0 p ∧ Ev.exiting 0 ∉ m := by
  have r := Run.nil (thr := 0) (tso := false)
  have r := Run.step r (Step.register (t := 0) (v := ⊤) rfl (by decide))
  have r := Run.step r (Step.register (t := 1) (v := ⊤) rfl (by decide))
  have r := Run.step r (Step.enter (t := 0) rfl (by decide))
  have r := Run.step r (Step.ent0 (t := 0) rfl)
  have r := Run.step r (Step.ent1 (t := 0) rfl rfl)
  have r := Run.step r (Step.enter (t := 1) rfl (by decide))
  have r := Run.step r (Step.ent0 (t := 1) rfl)
  have r := Run.step r (Step.ent1 (t := 1) rfl rfl)
  have r := Run.step r (Step.mark (t := 1) (x := 42) rfl (by decide))
  have r := Run.step r (Step.mark0 (t := 1) rfl)
  have r := Run.step r (Step.mark1 (t := 1) rfl)
  have r := Run.step r (Step.exit (t := 1) rfl (by decide))
  have r := Run.step r (Step.exit0_bump (t := 1) rfl (by decide))
  have r := Run.step r (Step.exit1_scan (t := 1) rfl (by decide) (by decide) rfl)
  have r := Run.step r (Step.enter (t := 0) rfl (by decide))
  have r := Run.step r (Step.ent0 (t := 0) rfl)
  have r := Run.step r (Step.ent1 (t := 0) rfl rfl)
  have r := Run.step r (Step.exit2 (t := 1) rfl)
  have r := Run.step r (Step.exit2 (t := 1) rfl)
  have r := Run.step r (Step.exit2_end (t := 1) rfl)
  have r := Run.step r (Step.exit3_free (t := 1) rfl (by decide))
  exact ⟨[.entered 0, .exiting 1], [.entered 1, .entered 0], _, r, by decide, by decide⟩

/-- Sequential consistency is needed: `enterEpoch` uses a release store, which x86 may keep in the store
buffer after the call returned; then the scan does not see it, although every thread uses one guard. -/
theorem C43_tso_wrong : ∃ (m p : List Ev) (s : St), Run 0 true (.freed 42 0 :: (m ++ .retired 1 42 0 :: p)) s ∧
    WellUsed (.freed 42 0 :: (m ++ .retired 1 42 0 :: p)) ∧ 0 < guards 0 p ∧ Ev.exiting 0 ∉ m := by
  have r := Run.nil (thr := 0) (tso := true)
  have r := Run.step r (Step.register (t := 0) (v := ⊤) rfl (by decide))
  have r := Run.step r (Step.register (t := 1) (v := ⊤) rfl (by decide))
  have r := Run.step r (Step.enter (t := 0) rfl (by decide))
  have r := Run.step r (Step.ent0 (t := 0) rfl)
  have r := Run.step r (Step.ent1_buffered (t := 0) rfl rfl rfl)
  have r := Run.step r (Step.enter (t := 1) rfl (by decide))
  have r := Run.step r (Step.ent0 (t := 1) rfl)
  have r := Run.step r (Step.ent1 (t := 1) rfl rfl)
  have r := Run.step r (Step.mark (t := 1) (x := 42) rfl (by decide))
  have r := Run.step r (Step.mark0 (t := 1) rfl)
  have r := Run.step r (Step.mark1 (t := 1) rfl)
  have r := Run.step r (Step.exit (t := 1) rfl (by decide))
  have r := Run.step r (Step.exit0_bump (t := 1) rfl (by decide))
  have r := Run.step r (Step.exit1_scan (t := 1) rfl (by decide) (by decide) rfl)
  have r := Run.step r (Step.exit2 (t := 1) rfl)
  have r := Run.step r (Step.exit2 (t := 1) rfl)
  have r := Run.step r (Step.exit2_end (t := 1) rfl)
  have r := Run.step r (Step.exit3_free (t := 1) rfl (by decide))
  exact ⟨[.exiting 1], [.entered 1, .entered 0], _, r, by simp [WellUsed, guards], by decide, by decide⟩

end QDD.Props
