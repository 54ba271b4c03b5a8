import Verif.Core.Weights
/-!
# Resumption trees

`Prog σ α`: a computation over shared state `σ`, as a well-founded tree of atomic steps with binary
fork/join.  The same tree has a sequential semantics (`run`) and an interleaving semantics (`Step`).
-/

namespace QDD

/-- A program over shared state `σ` returning `α`.
* `step f k`: one atomic access by the thread `tid : Nat` currently running the fiber, then `k`.
* `par p q k`: two fibers spawned and both futures awaited (dd.cpp 1435-1454, 1160-1181), then `k`. -/
inductive Prog (σ : Type) : Type → Type 1
  | ret {α : Type} (a : α) : Prog σ α
  | step {α β : Type} (f : Nat → σ → Except Err (β × σ)) (k : β → Prog σ α) : Prog σ α
  | par {α β γ : Type} (p : Prog σ β) (q : Prog σ γ) (k : β × γ → Prog σ α) : Prog σ α

namespace Prog
variable {σ : Type}

/-- Sequential composition. -/
def bind' {α β : Type} : Prog σ α → (α → Prog σ β) → Prog σ β
  | ret a, f => f a
  | step g k, f => step g (fun b => bind' (k b) f)
  | par p q k, f => par p q (fun x => bind' (k x) f)

instance : Monad (Prog σ) where
  pure := ret
  bind := bind'

/-- One atomic access. -/
def atom {β : Type} (f : Nat → σ → Except Err (β × σ)) : Prog σ β := step f ret

/-- Abort with an error. -/
def fail {β : Type} (e : Err) : Prog σ β := step (β := Empty) (fun _ _ => .error e) (fun b => nomatch b)

/-- Fork two fibers and wait for both, or run them one after the other (`MT` off, or below `LIMIT`). -/
def fork {β γ : Type} (b : Bool) (p : Prog σ β) (q : Prog σ γ) : Prog σ (β × γ) :=
  if b then par p q ret else do
    let x ← p
    let y ← q
    return (x, y)

/-- Sequential semantics: everything on thread 0, forks run left then right. -/
def run {α : Type} : Prog σ α → σ → Except Err (α × σ)
  | ret a, s => .ok (a, s)
  | step f k, s => match f 0 s with
    | .ok (b, s') => run (k b) s'
    | .error e => .error e
  | par p q k, s => match run p s with
    | .ok (a, s') => match run q s' with
      | .ok (b, s'') => run (k (a, b)) s''
      | .error e => .error e
    | .error e => .error e

/-- One scheduler choice: some enabled fiber does one atomic access on some thread. -/
inductive Step : {α : Type} → Prog σ α → σ → Prog σ α → σ → Prop
  | step {α β : Type} {f : Nat → σ → Except Err (β × σ)} {k : β → Prog σ α} {s s' : σ} {b : β} (tid : Nat)
      (h : f tid s = .ok (b, s')) : Step (step f k) s (k b) s'
  | parL {α β γ : Type} {p p' : Prog σ β} {q : Prog σ γ} {k : β × γ → Prog σ α} {s s' : σ}
      (h : Step p s p' s') : Step (par p q k) s (par p' q k) s'
  | parR {α β γ : Type} {p : Prog σ β} {q q' : Prog σ γ} {k : β × γ → Prog σ α} {s s' : σ}
      (h : Step q s q' s') : Step (par p q k) s (par p q' k) s'
  | join {α β γ : Type} {a : β} {b : γ} {k : β × γ → Prog σ α} {s : σ} :
      Step (par (ret a) (ret b) k) s (k (a, b)) s

/-- Some enabled fiber's next atomic access errs on some thread. -/
inductive Faults : {α : Type} → Prog σ α → σ → Prop
  | step {α β : Type} {f : Nat → σ → Except Err (β × σ)} {k : β → Prog σ α} {s : σ} {e : Err} (tid : Nat)
      (h : f tid s = .error e) : Faults (step f k) s
  | parL {α β γ : Type} {p : Prog σ β} {q : Prog σ γ} {k : β × γ → Prog σ α} {s : σ}
      (h : Faults p s) : Faults (par p q k) s
  | parR {α β γ : Type} {p : Prog σ β} {q : Prog σ γ} {k : β × γ → Prog σ α} {s : σ}
      (h : Faults q s) : Faults (par p q k) s

/-- Any finite number of scheduler choices. -/
inductive Steps {α : Type} : Prog σ α → σ → Prog σ α → σ → Prop
  | refl {p s} : Steps p s p s
  | tail {p s p' s' p'' s''} (h : Steps p s p' s') (h' : Step p' s' p'' s'') : Steps p s p'' s''

/-- What a rely/guarantee argument needs: an invariant and a reflexive transitive "grows to" relation. -/
structure World (σ : Type) where
  Inv : σ → Prop
  Ext : σ → σ → Prop
  refl : ∀ s, Ext s s
  trans : ∀ {a b c}, Ext a b → Ext b c → Ext a c

variable (Wd : World σ)

/-- `Sat p s Q`: started in any invariant state reached from `s`, under any interference that keeps the
invariant and only grows the state, `p` never errs, keeps the invariant, only grows the state, and returns
values satisfying `Q`. -/
def Sat {α : Type} : Prog σ α → σ → (σ → α → Prop) → Prop
  | ret a, s, Q => ∀ s', Wd.Inv s' → Wd.Ext s s' → Q s' a
  | step f k, s, Q => ∀ s1 tid, Wd.Inv s1 → Wd.Ext s s1 →
      ∃ b s2, f tid s1 = .ok (b, s2) ∧ Wd.Inv s2 ∧ Wd.Ext s1 s2 ∧ Sat (k b) s2 Q
  | par p q k, s, Q => ∀ s1, Wd.Inv s1 → Wd.Ext s s1 → ∃ Qp Qq, Sat p s1 Qp ∧ Sat q s1 Qq ∧
      ∀ s' a b, Wd.Inv s' → Wd.Ext s1 s' → Qp s' a → Qq s' b → Sat (k (a, b)) s' Q

variable {Wd}

theorem Sat.ext {α : Type} {p : Prog σ α} {s s' : σ} {Q} (h : Sat Wd p s Q) (he : Wd.Ext s s') :
    Sat Wd p s' Q := by
  cases p with
  | ret a => intro s1 hi h1; exact h s1 hi (Wd.trans he h1)
  | step f k => intro s1 tid hi h1; exact h s1 tid hi (Wd.trans he h1)
  | par p q k => intro s1 hi h1; exact h s1 hi (Wd.trans he h1)

/-- It is enough to establish `Sat` at the invariant states reachable from `s`. -/
theorem Sat.intro {α : Type} {p : Prog σ α} {s : σ} {Q}
    (h : ∀ s', Wd.Inv s' → Wd.Ext s s' → Sat Wd p s' Q) : Sat Wd p s Q := by
  cases p with
  | ret a => intro s1 hi h1; exact h s1 hi h1 s1 hi (Wd.refl _)
  | step f k => intro s1 tid hi h1; exact h s1 hi h1 s1 tid hi (Wd.refl _)
  | par p q k => intro s1 hi h1; exact h s1 hi h1 s1 hi (Wd.refl _)

theorem Sat.mono {α : Type} {p : Prog σ α} {s : σ} {Q Q' : σ → α → Prop} (h : Sat Wd p s Q)
    (hq : ∀ s' a, Wd.Inv s' → Wd.Ext s s' → Q s' a → Q' s' a) : Sat Wd p s Q' := by
  induction p generalizing s with
  | ret a => intro s1 hi h1; exact hq _ _ hi h1 (h s1 hi h1)
  | step f k ih =>
    intro s1 tid hi h1
    obtain ⟨b, s2, hf, hi2, he2, hs⟩ := h s1 tid hi h1
    exact ⟨b, s2, hf, hi2, he2, ih b hs (fun s' a hi' he' => hq s' a hi' (Wd.trans h1 (Wd.trans he2 he')))⟩
  | par p q k ihp ihq ihk =>
    intro s1 hi h1
    obtain ⟨Qp, Qq, hp, hq', hk⟩ := h s1 hi h1
    exact ⟨Qp, Qq, hp, hq', fun s2 a b hi h2 ha hb =>
      ihk (a, b) (hk s2 a b hi h2 ha hb) (fun s' x hi' he' => hq s' x hi' (Wd.trans h1 (Wd.trans h2 he')))⟩

theorem Sat.bind {α β : Type} {p : Prog σ α} {k : α → Prog σ β} {s : σ} {Q : σ → α → Prop} {R}
    (h : Sat Wd p s Q) (hk : ∀ s' a, Wd.Inv s' → Wd.Ext s s' → Q s' a → Sat Wd (k a) s' R) :
    Sat Wd (p >>= k) s R := by
  show Sat Wd (bind' p k) s R
  induction p generalizing s with
  | ret a => exact Sat.intro fun s' hi he => hk s' a hi he (h s' hi he)
  | step f k' ih =>
    intro s1 tid hi h1
    obtain ⟨b, s2, hf, hi2, he2, hs⟩ := h s1 tid hi h1
    exact ⟨b, s2, hf, hi2, he2, ih b hs (fun s' a hi' he' => hk s' a hi' (Wd.trans h1 (Wd.trans he2 he')))⟩
  | par p q k' ihp ihq ihk =>
    intro s1 hi h1
    obtain ⟨Qp, Qq, hp, hq', hk'⟩ := h s1 hi h1
    exact ⟨Qp, Qq, hp, hq', fun s2 a b hi h2 ha hb =>
      ihk (a, b) (hk' s2 a b hi h2 ha hb) (fun s' x hi' he' => hk s' x hi' (Wd.trans h1 (Wd.trans h2 he')))⟩

theorem Sat.pure {α : Type} {a : α} {s : σ} {Q : σ → α → Prop}
    (h : ∀ s', Wd.Inv s' → Wd.Ext s s' → Q s' a) : Sat Wd (Pure.pure a : Prog σ α) s Q := h

theorem Sat.atom {β : Type} {f : Nat → σ → Except Err (β × σ)} {s : σ} {Q : σ → β → Prop}
    (h : ∀ s1 tid, Wd.Inv s1 → Wd.Ext s s1 → ∃ b s2, f tid s1 = .ok (b, s2) ∧ Wd.Inv s2 ∧ Wd.Ext s1 s2 ∧
      ∀ s', Wd.Inv s' → Wd.Ext s2 s' → Q s' b) : Sat Wd (Prog.atom f) s Q := h

/-- A fork is verified by verifying both branches from the forking state. -/
theorem Sat.fork {β γ : Type} {c : Bool} {p : Prog σ β} {q : Prog σ γ} {s : σ} {Qp : σ → β → Prop}
    {Qq : σ → γ → Prop} (hsp : ∀ s s' a, Wd.Inv s → Wd.Inv s' → Wd.Ext s s' → Qp s a → Qp s' a)
    (hsq : ∀ s s' a, Wd.Inv s → Wd.Inv s' → Wd.Ext s s' → Qq s a → Qq s' a)
    (hp : Sat Wd p s Qp) (hq : Sat Wd q s Qq) :
    Sat Wd (Prog.fork c p q) s (fun s' x => Qp s' x.1 ∧ Qq s' x.2) := by
  unfold Prog.fork
  split
  · intro s1 hi h1
    refine ⟨Qp, Qq, hp.ext h1, hq.ext h1, fun s' a b hi' h' ha hb => ?_⟩
    intro s2 hi2 h2
    exact ⟨hsp _ _ _ hi' hi2 h2 ha, hsq _ _ _ hi' hi2 h2 hb⟩
  · refine Sat.bind hp fun s1 a hi1 he1 ha => ?_
    refine Sat.bind (hq.ext he1) fun s2 b hi2 he2 hb => ?_
    intro s3 hi3 he3
    exact ⟨hsp _ _ _ hi1 hi3 (Wd.trans he2 he3) ha, hsq _ _ _ hi2 hi3 he3 hb⟩

/-- Soundness for the sequential semantics. -/
theorem Sat.run {α : Type} {p : Prog σ α} {s : σ} {Q} (h : Sat Wd p s Q) (hi : Wd.Inv s) :
    ∃ a s', Prog.run p s = .ok (a, s') ∧ Wd.Inv s' ∧ Wd.Ext s s' ∧
      ∀ s'', Wd.Inv s'' → Wd.Ext s' s'' → Q s'' a := by
  induction p generalizing s with
  | ret a => exact ⟨a, s, rfl, hi, Wd.refl _, h⟩
  | step f k ih =>
    obtain ⟨b, s2, hf, hi2, he2, hs⟩ := h s 0 hi (Wd.refl _)
    obtain ⟨a, s', hr, hi', he', hQ⟩ := ih b hs hi2
    exact ⟨a, s', by simp [Prog.run, hf, hr], hi', Wd.trans he2 he', hQ⟩
  | par p q k ihp ihq ihk =>
    obtain ⟨Qp, Qq, hp, hq, hk⟩ := h s hi (Wd.refl _)
    obtain ⟨a, s1, hr1, hi1, he1, hQ1⟩ := ihp hp hi
    obtain ⟨b, s2, hr2, hi2, he2, hQ2⟩ := ihq (hq.ext he1) hi1
    obtain ⟨c, s3, hr3, hi3, he3, hQ3⟩ := ihk (a, b)
      (hk s2 a b hi2 (Wd.trans he1 he2) (hQ1 s2 hi2 he2) (hQ2 s2 hi2 (Wd.refl _))) hi2
    exact ⟨c, s3, by simp [Prog.run, hr1, hr2, hr3], hi3, Wd.trans he1 (Wd.trans he2 he3), hQ3⟩

/-- Soundness for interleavings, one scheduler choice. -/
theorem Sat.step {α : Type} {p p' : Prog σ α} {s s' : σ} (hst : Step p s p' s') :
    ∀ {Q}, Sat Wd p s Q → Wd.Inv s → Wd.Inv s' ∧ Wd.Ext s s' ∧ Sat Wd p' s' Q := by
  induction hst with
  | step tid hf =>
    intro Q h hi
    obtain ⟨b, s2, hf', hi2, he2, hs⟩ := h _ tid hi (Wd.refl _)
    rw [hf] at hf'
    cases hf'
    exact ⟨hi2, he2, hs⟩
  | parL h' ih =>
    intro Q h hi
    obtain ⟨Qp, Qq, hp, hq, hk⟩ := h _ hi (Wd.refl _)
    obtain ⟨hi', he', hp'⟩ := ih hp hi
    exact ⟨hi', he', fun s1 hi1 he1 => ⟨Qp, Qq, hp'.ext he1, hq.ext (Wd.trans he' he1),
      fun s2 a b hi2 he2 => hk s2 a b hi2 (Wd.trans he' (Wd.trans he1 he2))⟩⟩
  | parR h' ih =>
    intro Q h hi
    obtain ⟨Qp, Qq, hp, hq, hk⟩ := h _ hi (Wd.refl _)
    obtain ⟨hi', he', hq'⟩ := ih hq hi
    exact ⟨hi', he', fun s1 hi1 he1 => ⟨Qp, Qq, hp.ext (Wd.trans he' he1), hq'.ext he1,
      fun s2 a b hi2 he2 => hk s2 a b hi2 (Wd.trans he' (Wd.trans he1 he2))⟩⟩
  | join =>
    intro Q h hi
    obtain ⟨Qp, Qq, hp, hq, hk⟩ := h _ hi (Wd.refl _)
    exact ⟨hi, Wd.refl _, hk _ _ _ hi (Wd.refl _) (hp _ hi (Wd.refl _)) (hq _ hi (Wd.refl _))⟩

theorem Sat.steps {α : Type} {p p' : Prog σ α} {s s' : σ} {Q} (hst : Steps p s p' s')
    (h : Sat Wd p s Q) (hi : Wd.Inv s) : Wd.Inv s' ∧ Wd.Ext s s' ∧ Sat Wd p' s' Q := by
  induction hst with
  | refl => exact ⟨hi, Wd.refl _, h⟩
  | tail _ h2 ih =>
    obtain ⟨hi1, he1, hs1⟩ := ih
    obtain ⟨hi2, he2, hs2⟩ := Sat.step h2 hs1 hi1
    exact ⟨hi2, Wd.trans he1 he2, hs2⟩

/-- No enabled access errs. -/
theorem Sat.noFault {α : Type} {p : Prog σ α} {s : σ} (hf : Faults p s) :
    ∀ {Q}, Sat Wd p s Q → Wd.Inv s → False := by
  induction hf with
  | step tid hf =>
    intro Q h hi
    obtain ⟨b, s2, hf', _⟩ := h _ tid hi (Wd.refl _)
    rw [hf] at hf'; cases hf'
  | parL _ ih =>
    intro Q h hi
    obtain ⟨Qp, Qq, hp, hq, hk⟩ := h _ hi (Wd.refl _)
    exact ih hp hi
  | parR _ ih =>
    intro Q h hi
    obtain ⟨Qp, Qq, hp, hq, hk⟩ := h _ hi (Wd.refl _)
    exact ih hq hi

/-- A program that has not returned has an enabled access. -/
theorem progress {α : Type} (p : Prog σ α) (s : σ) :
    (∃ a, p = ret a) ∨ Faults p s ∨ ∃ p' s', Step p s p' s' := by
  induction p with
  | ret a => exact .inl ⟨a, rfl⟩
  | step f k ih =>
    right
    cases h : f 0 s with
    | ok x => exact .inr ⟨k x.1, x.2, .step 0 h⟩
    | error e => exact .inl (.step 0 h)
  | par p q k ihp ihq ihk =>
    right
    rcases ihp with ⟨a, rfl⟩ | hf | ⟨p', s', h⟩
    · rcases ihq with ⟨b, rfl⟩ | hf | ⟨q', s', h⟩
      · exact .inr ⟨_, _, .join⟩
      · exact .inl (.parR hf)
      · exact .inr ⟨_, _, .parR h⟩
    · exact .inl (.parL hf)
    · exact .inr ⟨_, _, .parL h⟩

/-- Every schedule is finite: the one-step relation on programs is well founded. -/
theorem acc {α : Type} (p : Prog σ α) : Acc (fun p' p => ∃ s s', Step p s p' s') p := by
  induction p with
  | ret a => exact ⟨_, fun p' ⟨s, s', h⟩ => by cases h⟩
  | step f k ih =>
    refine ⟨_, fun p' ⟨s, s', h⟩ => ?_⟩
    cases h
    exact ih _
  | par p q k ihp ihq ihk =>
    induction ihp generalizing q with
    | intro p hp ihp' =>
      induction ihq with
      | intro q hq ihq' =>
        refine ⟨_, fun p' ⟨s, s', h⟩ => ?_⟩
        cases h with
        | parL h => exact ihp' _ ⟨_, _, h⟩ q ⟨_, hq⟩
        | parR h => exact ihq' _ ⟨_, _, h⟩
        | join => exact ihk _

/-- Every interleaving of a verified program: no error, invariant kept, right answer; and it cannot get
stuck before returning.  Together with `acc` (no infinite schedule) this is total correctness under every
scheduler. -/
theorem Sat.all_schedules {α : Type} {p p' : Prog σ α} {s s' : σ} {Q} (h : Sat Wd p s Q) (hi : Wd.Inv s)
    (hst : Steps p s p' s') :
    ¬ Faults p' s' ∧ Wd.Inv s' ∧ Wd.Ext s s' ∧
      ((∃ a, p' = ret a ∧ Q s' a) ∨ ∃ p'' s'', Step p' s' p'' s'') := by
  obtain ⟨hi', he', hs'⟩ := h.steps hst hi
  refine ⟨fun hf => hs'.noFault hf hi', hi', he', ?_⟩
  rcases progress p' s' with ⟨a, rfl⟩ | hf | h
  · exact .inl ⟨a, rfl, hs' _ hi' (Wd.refl _)⟩
  · exact (hs'.noFault hf hi').elim
  · exact .inr h

end Prog
end QDD
