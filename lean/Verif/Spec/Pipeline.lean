import Verif.Model.Pipeline
import Verif.Lemmas.Primary
import Verif.Spec.Table

/-!
# Compiled tables, for every iteration order of the hash maps

The tries of a compiled table are hash maps whose iteration order is not determined.  `Pipeline.Compiles` relates the rules
of a table to every pipeline the compilation may produce; the theorems about translators are stated for all of them.
-/

namespace Louis

/-- The same letter-sign indicator, its trie being listed in any order. -/
def LetIndicator.Same (l l' : LetIndicator) : Prop :=
  l.contractions.SameEntries l'.contractions ∧ l' = { l with contractions := l'.contractions }

def NocIndicator.Same (l l' : NocIndicator) : Prop :=
  l.contractions.SameEntries l'.contractions ∧ l' = { l with contractions := l'.contractions }

/-- Both absent, or both present and related. -/
def OptionRel {α : Type} (R : α → α → Prop) : Option α → Option α → Prop
  | none, none => True
  | some a, some b => R a b
  | _, _ => False

/-- The same main stage, the hash maps of its tries being listed in any order. -/
structure Primary.Same (p p' : Primary) : Prop where
  table : SameTable p.table p'.table
  letsign : OptionRel LetIndicator.Same p.indicators.letsign p'.indicators.letsign
  nocontract : OptionRel NocIndicator.Same p.indicators.nocontract p'.indicators.nocontract
  indicators : p'.indicators = { p.indicators with letsign := p'.indicators.letsign, nocontract := p'.indicators.nocontract }
  others : p' = { p with table := p'.table, indicators := p'.indicators }

/-- The same step of a pipeline. -/
inductive Transform.Same : Transform → Transform → Prop
  | pre (t : MultipassTable) : Transform.Same (.pre t) (.pre t)
  | primary {p p' : Primary} : p.Same p' → Transform.Same (.primary p) (.primary p')
  | post (t : MultipassTable) : Transform.Same (.post t) (.post t)

/-- The same steps. -/
inductive SameSteps : List Transform → List Transform → Prop
  | nil : SameSteps [] []
  | cons {a b as bs} : Transform.Same a b → SameSteps as bs → SameSteps (a :: as) (b :: bs)

/-- Compiling the rules for a direction succeeds and may yield this pipeline. -/
def Pipeline.Compiles (sys : Sys) (rules : List Anchored) (d : Direction) (steps : List Transform) : Prop :=
  ∃ s₀, Pipeline.compile sys rules d = .ok s₀ ∧ SameSteps s₀ steps

/-- The order of the stages: reversed for backward translation. -/
def inOrder (d : Direction) (steps : List Transform) : List Transform :=
  match d with
  | .forward => steps
  | .backward => steps.reverse

/-- The rules that may be used in a direction. -/
def allowedRules (rules : List Anchored) (d : Direction) : List Anchored := rules.filter (·.rule.isDirection d)

end Louis
