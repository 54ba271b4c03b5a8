import Verif.Safe.Round
/-!
# NaN

The arithmetic of `Safe/Round.lean` extended with a value that every operation propagates and every comparison rejects
(IEEE 754 quiet NaN).
-/

set_option linter.unusedSectionVars false
set_option linter.unusedVariables false

namespace QDD.Safe
open Prog

/-- `struct Complex` (dd.h 22-140) with NaN: `none`. -/
instance nanW {W : Type} [WOps W] : WOps (Option W) where
  zero := some WOps.zero
  one := some WOps.one
  add a b := a.bind fun a => b.map fun b => WOps.add a b
  mul a b := a.bind fun a => b.map fun b => WOps.mul a b
  div a b := a.bind fun a => b.map fun b => WOps.div a b
  az a := a.any fun a => WOps.az a
  ae a b := a.any fun a => b.any fun b => WOps.ae a b
  nz a := a.any fun a => WOps.nz a
  lt a b := a.any fun a => b.any fun b => WOps.lt a b

/-- `double` with NaN. -/
@[reducible] def nanR (R W : Type) [ROps R W] : ROps (Option R) (Option W) where
  zero := some (ROps.zero W)
  one := some (ROps.one W)
  half := some (ROps.half W)
  add a b := a.bind fun a => b.map fun b => ROps.add W a b
  sub a b := a.bind fun a => b.map fun b => ROps.sub W a b
  mul a b := a.bind fun a => b.map fun b => ROps.mul W a b
  div a b := a.bind fun a => b.map fun b => ROps.div W a b
  lt a b := a.any fun a => b.any fun b => ROps.lt W a b
  eq0 a := a.any fun a => ROps.eq0 W a
  far a b := a.any fun a => b.any fun b => ROps.far W a b
  sqrt a := a.map fun a => ROps.sqrt W a
  mag2 a := a.map fun a => ROps.mag2 a
  ofReal a := a.map fun a => ROps.ofReal a

/-! ## Sequential runs are schedules -/

theorem Steps.trans {σ α : Type} {p q r : Prog σ α} {s t u : σ} (h : Steps p s q t) (h' : Steps q t r u) :
    Steps p s r u := by
  induction h' with
  | refl => exact h
  | tail _ h1 ih => exact .tail ih h1

theorem Steps.parL {σ α β γ : Type} {p p' : Prog σ β} {q : Prog σ γ} {k : β × γ → Prog σ α} {s s' : σ}
    (h : Steps p s p' s') : Steps (par p q k) s (par p' q k) s' := by
  induction h with
  | refl => exact .refl
  | tail _ h1 ih => exact .tail ih (.parL h1)

theorem Steps.parR {σ α β γ : Type} {p : Prog σ β} {q q' : Prog σ γ} {k : β × γ → Prog σ α} {s s' : σ}
    (h : Steps q s q' s') : Steps (par p q k) s (par p q' k) s' := by
  induction h with
  | refl => exact .refl
  | tail _ h1 ih => exact .tail ih (.parR h1)

/-- The sequential execution is one of the schedules. -/
theorem run_steps {σ α : Type} (p : Prog σ α) : ∀ (s : σ),
    (∀ a s', p.run s = .ok (a, s') → Steps p s (Prog.ret a) s') ∧
    (∀ er, p.run s = .error er → ∃ p' s', Steps p s p' s' ∧ Faults p' s') := by
  induction p with
  | ret a =>
    refine fun s => ⟨fun b s' h => ?_, fun er h => ?_⟩
    · cases h; exact .refl
    · cases h
  | step f k ih =>
    intro s
    rcases hf : f 0 s with er | ⟨b, s1⟩
    · refine ⟨fun a s' h => ?_, fun er' h => ⟨_, _, .refl, .step 0 hf⟩⟩
      simp only [run, hf] at h; cases h
    · have hr : (step f k).run s = (k b).run s1 := by simp only [run, hf]
      rw [hr]
      refine ⟨fun a s' h => Steps.trans (.tail .refl (.step 0 hf)) ((ih b s1).1 a s' h), fun er h => ?_⟩
      obtain ⟨p', s', h1, h2⟩ := (ih b s1).2 er h
      exact ⟨p', s', Steps.trans (.tail .refl (.step 0 hf)) h1, h2⟩
  | par p q k ihp ihq ihk =>
    intro s
    rcases hp : p.run s with er | ⟨a, s1⟩
    · refine ⟨fun x s' h => ?_, fun er' h => ?_⟩
      · simp only [run, hp] at h; cases h
      · obtain ⟨p', s', h1, h2⟩ := (ihp s).2 er hp
        exact ⟨_, _, Steps.parL h1, .parL h2⟩
    · have g1 := (ihp s).1 a s1 hp
      rcases hq : q.run s1 with er | ⟨b, s2⟩
      · refine ⟨fun x s' h => ?_, fun er' h => ?_⟩
        · simp only [run, hp, hq] at h; cases h
        · obtain ⟨p', s', h1, h2⟩ := (ihq s1).2 er hq
          exact ⟨_, _, Steps.trans (Steps.parL g1) (Steps.parR h1), .parR h2⟩
      · have g2 := (ihq s1).1 b s2 hq
        have g3 : Steps (par p q k) s (k (a, b)) s2 :=
          Steps.trans (Steps.parL g1) (Steps.trans (Steps.parR g2) (.tail .refl .join))
        have hr : (par p q k).run s = (k (a, b)).run s2 := by simp only [run, hp, hq]
        rw [hr]
        refine ⟨fun x s' h => Steps.trans g3 ((ihk (a, b) s2).1 x s' h), fun er h => ?_⟩
        obtain ⟨p', s', h1, h2⟩ := (ihk (a, b) s2).2 er h
        exact ⟨p', s', Steps.trans g3 h1, h2⟩

variable {R W : Type} [WOps W] [ROps R W]

/-- One call on one thread. -/
def run1 (env : Env W) (c : Call R W) (σ : Sys R W) : Except Err (Out R W × Sys R W) :=
  match (prog env false (fun _ => false) σ.d c).run σ.st with
  | .error er => .error er
  | .ok ((d, o), s) => .ok (o, ⟨d, s⟩)

theorem exec_run1 {env : Env W} {c : Call R W} {σ σ' : Sys R W} {o} (h : run1 env c σ = .ok (o, σ')) :
    Exec env false σ c o σ' := by
  unfold run1 at h
  rcases hr : (prog env false (fun _ => false) σ.d c).run σ.st with er | ⟨⟨d, o1⟩, s⟩
  · rw [hr] at h; cases h
  · rw [hr] at h; cases h
    cases hc : c.seq with
    | false => exact .conc hc ((run_steps _ _).1 _ _ hr)
    | true => exact .seq hc hr

theorem fault_run1 {env : Env W} {c : Call R W} {σ : Sys R W} {er} (h : run1 env c σ = .error er) :
    CanFault env false σ c := by
  unfold run1 at h
  rcases hr : (prog env false (fun _ => false) σ.d c).run σ.st with er | ⟨⟨d, o1⟩, s⟩
  · cases hc : c.seq with
    | false =>
      obtain ⟨p', s', h1, h2⟩ := (run_steps _ _).2 _ hr
      exact .conc hc h1 h2
    | true => exact .seq hc hr
  · rw [hr] at h; cases h

/-- All calls on one thread. -/
def runAll (env : Env W) : List (Call R W) → Sys R W → Except Err (Sys R W)
  | [], σ => .ok σ
  | c :: cs, σ => match run1 env c σ with
    | .error er => .error er
    | .ok (_, σ) => runAll env cs σ

/-! ## A history that runs into an assertion -/

/-- Exact arithmetic on the rationals, no tolerance. -/
def exact : Rounding ℚ := ⟨id, fun _ => rfl, fun h => h, fun _ => rfl, rfl⟩

abbrev NW : Type := Option (Rounding.FCx exact (0 : ℚ))
abbrev NR : Type := Option exact.Num
@[reducible] instance : ROps exact.Num (Rounding.FCx exact (0 : ℚ)) := Rounding.measOps exact 0 id
@[reducible] instance : ROps NR NW := nanR exact.Num (Rounding.FCx exact (0 : ℚ))

def nanEnv : Env NW := ⟨fun _ => 0, fun _ => 0, fun _ _ => 0, fun _ _ => 0, fun _ => 0, fun _ _ _ => false, fun _ _ _ => false⟩

def nanCalls : List (Call NR NW) :=
  [.zero 1, .gate 1 (fun _ _ => WOps.zero) 0 [], .mv 0 0, .scale 1 none, .gate 1 (fun _ _ => WOps.one) 0 []]

def nanTest : Bool :=
  match runAll nanEnv nanCalls (Sys.init 5 5) with
  | .error _ => false
  | .ok σ => match run1 nanEnv (.mv 1 2) σ with
    | .error .assert => true
    | _ => false

theorem nanTest_eq : nanTest = true := by decide +kernel

end QDD.Safe
