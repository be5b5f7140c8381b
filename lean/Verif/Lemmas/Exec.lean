import Verif.Model.Pipeline

/-!
# Running the model

`Pipeline.run` evaluates the whole pipeline with a bound on the number of rounds; `run_sound` shows that what it computes is
what the model does.  It is used for counterexamples and for examples of the hypotheses.
-/

namespace Louis

/-- The result of a computation that went well. -/
def okOf {ε α : Type} : Except ε α → Option α
  | .ok a => some a
  | .error _ => none

theorem okOf_eq {ε α : Type} {e : Except ε α} {a : α} (h : okOf e = some a) : e = .ok a := by
  cases e with
  | ok b => simp only [okOf, Option.some.injEq] at h; rw [h]
  | error _ => simp [okOf] at h

/-- The main stage, with a bound on the number of rounds. -/
def Primary.run (p : Primary) (cs : Case) (fuel : Nat) (input : Text) (spans : List Span) : Option (List Resolved) :=
  match if p.triggers.isEmpty then some spans else scanLoop p.triggers p.classes.isWhitespace input fuel 0 spans with
  | none => none
  | some enriched =>
    match okOf (p.constrainers.precompute input enriched) with
    | none => none
    | some cons =>
      match okOf (p.indicators.precompute cs.lower input enriched) with
      | none => none
      | some ind => okOf (pLoop p.table cs cons (fun pos => (ind[pos]?).getD []) input fuel (PState.init input))

def Transform.run (cs : Case) (fuel : Nat) (spans : List Span) (input : Text) : Transform → Option (List Resolved)
  | .pre t | .post t => okOf (mpLoop t cs.lower input fuel (MpState.init input))
  | .primary p => p.run cs fuel input spans

def Pipeline.runSteps (cs : Case) (fuel : Nat) (spans : List Span) : Text → List Transform → Option (List (List Resolved))
  | _, [] => some []
  | input, step :: steps =>
    match step.run cs fuel spans input with
    | none => none
    | some ts => (Pipeline.runSteps cs fuel spans (outputOf ts) steps).map (ts :: ·)

/-- Compile the rules and translate the text: the trace. -/
def Pipeline.run (sys : Sys) (cs : Case) (fuel : Nat) (rules : List Anchored) (d : Direction) (spans : List Span)
    (input : Text) : Option (List (List Resolved)) :=
  match okOf (Pipeline.compile sys rules d) with
  | none => none
  | some steps => Pipeline.runSteps cs fuel spans input steps

/-- The translation belonging to a trace. -/
def lastOutput (input : Text) (tss : List (List Resolved)) : Text := (tss.getLast?.map outputOf).getD input

theorem Pipeline.Traces.length {cs : Case} {spans : List Span} : ∀ {steps : List Transform} {input : Text}
    {tss : List (List Resolved)}, Pipeline.Traces cs spans input steps tss → tss.length = steps.length
  | [], _, _, h => by rw [show _ = [] from h]; rfl
  | _ :: _, _, _, ⟨_, _, e, _, h⟩ => by rw [e, List.length_cons, h.length, List.length_cons]

theorem Primary.run_sound {p : Primary} {cs : Case} {fuel : Nat} {input : Text} {spans : List Span} {ts : List Resolved}
    (h : p.run cs fuel input spans = some ts) : p.Traces cs input spans ts := by
  unfold Primary.run at h
  split at h
  · cases h
  · rename_i enriched he
    split at h
    · cases h
    · rename_i cons hc
      split at h
      · cases h
      · rename_i ind hi
        refine ⟨enriched, cons, ind, ?_, okOf_eq hc, okOf_eq hi, fuel, okOf_eq h⟩
        split at he
        · rename_i ht
          rw [if_pos ht]
          injection he with he
          exact he.symm
        · rename_i ht
          rw [if_neg ht]
          exact ⟨fuel, he⟩

theorem Transform.run_sound {cs : Case} {fuel : Nat} {input : Text} {spans : List Span} {ts : List Resolved}
    {t : Transform} (h : t.run cs fuel spans input = some ts) : t.Traces cs spans input ts := by
  cases t with
  | pre t => exact ⟨fuel, okOf_eq h⟩
  | post t => exact ⟨fuel, okOf_eq h⟩
  | primary p => exact Primary.run_sound h

theorem Pipeline.runSteps_sound {cs : Case} {fuel : Nat} {spans : List Span} : ∀ {input : Text} {steps : List Transform}
    {tss : List (List Resolved)}, Pipeline.runSteps cs fuel spans input steps = some tss → Pipeline.Traces cs spans input steps tss
  | _, [], tss, h => by simp only [Pipeline.runSteps, Option.some.injEq] at h; exact h.symm
  | input, step :: steps, tss, h => by
    unfold Pipeline.runSteps at h
    split at h
    · cases h
    · rename_i ts ht
      obtain ⟨rest, hr, rfl⟩ := Option.map_eq_some_iff.mp h
      exact ⟨ts, rest, rfl, Transform.run_sound ht, Pipeline.runSteps_sound hr⟩

theorem Pipeline.run_sound {sys : Sys} {cs : Case} {fuel : Nat} {rules : List Anchored} {d : Direction} {spans : List Span}
    {input : Text} {tss : List (List Resolved)} (h : Pipeline.run sys cs fuel rules d spans input = some tss) :
    ∃ steps, Pipeline.compile sys rules d = .ok steps ∧ Pipeline.Traces cs spans input steps tss := by
  unfold Pipeline.run at h
  split at h
  · cases h
  · rename_i steps hs
    exact ⟨steps, okOf_eq hs, Pipeline.runSteps_sound h⟩

end Louis
