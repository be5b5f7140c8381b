import Verif.Props.BackwardTrace
import Verif.Props.Demo
import Verif.Lemmas.DecEq

/-!
# Conformance: the unit tests of the code, run on the model

The files `Verif/Conform/*` transcribe the unit tests of /repo (`#[cfg(test)] mod tests`), one `example` for each test, and evaluate
them on the model in the kernel.  They are tests, not proofs of properties: their purpose is to compare the model with what the authors
of the code say about its results.  Every `example` names the test it transcribes.
-/

namespace Louis.Conform

/-- The value of a computation that must not fail. -/
def got {ε α : Type} : Except ε α → Option α := Except.toOption

/-- Text of a string. -/
abbrev t (s : String) : Text := s.toList

/-- Rust compares `ResolvedTranslation`s by all fields but the origin (translation.rs `PartialEq` is derived; the tests have no origins). -/
def bare (r : Resolved) : Resolved := { r with origin := none }

/-- The rules of the lines (`parse_rule` in the tests). -/
def rulesOf (lines : List String) : Option (List Anchored) :=
  (allSome (fun l : String => parseLine l.toList) lines).map fun rs => rs.zipIdx.map fun r => ⟨r.1, r.2⟩

/-- `TranslationPipeline::compile`, then `translate` of each text. -/
def translates (cs : Case) (d : Direction) (lines : List String) (inputs : List String) : Option (List (Option String)) :=
  (rulesOf lines).map fun rules => inputs.map fun i => (runText demoSys cs 200 rules d [] i.toList).map String.ofList

end Louis.Conform
