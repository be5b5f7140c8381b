import Verif.Model.Compile
import Verif.Model.Library

/-!
# Model of `src/translator/pipeline.rs` and of `Translator` (`src/lib.rs`)
-/

namespace Louis

open Regexp (Fault)

/-- pipeline.rs:10-15 `enum Transformation`. -/
inductive Transform where
  | pre (t : MultipassTable)
  | primary (p : Primary)
  | post (t : MultipassTable)

/-- The rules of a multipass stage (pipeline.rs:60-64, 78-82, 88-92, 98-102). -/
def passRules (k : PassKind) (rules : List Anchored) : List PassRule :=
  rules.filterMap fun r => match r.rule with
    | .pass k' test action _ => if k' = k then some ⟨test, action, r.origin⟩ else none
    | _ => none

/-- context_pattern.rs `insert`: the classes a stage looks up, those of the characters before and of the cells after the
main stage. -/
def TableCtx.stageClasses (ctx : TableCtx) : Stage → CharClasses
  | .pre | .main => ctx.classes
  | .post1 | .post2 | .post3 => ctx.dots

/-- pipeline.rs:60-69 and the three similar blocks: a stage is present if it has a rule. -/
def compileStage (ctx : TableCtx) (d : Direction) (stage : Stage) (wrap : MultipassTable → Transform)
    (rules : List PassRule) : Except CompileErr (List Transform) :=
  if rules.isEmpty then .ok []
  else match compilePass (ctx.stageClasses stage) ctx.swaps d stage rules with
    | .error e => .error e
    | .ok ps => .ok [wrap ⟨ps, stage⟩]

/-- pipeline.rs:49-114 `TranslationPipeline::compile`. -/
def Pipeline.compile (sys : Sys) (rules : List Anchored) (d : Direction) : Except CompileErr (List Transform) :=
  let ctx := TableCtx.compile sys.alpha rules
  let rules := rules.filter (·.rule.isDirection d)
  match compileStage ctx d .pre .pre (passRules .correct rules) with
  | .error e => .error e
  | .ok correct =>
    match Primary.compile sys (TableCtx.compile sys.alpha rules) d rules with
    | .error e => .error e
    | .ok primary =>
      match compileStage ctx d .post1 .post (passRules .pass2 rules) with
      | .error e => .error e
      | .ok pass2 =>
        match compileStage ctx d .post2 .post (passRules .pass3 rules) with
        | .error e => .error e
        | .ok pass3 =>
          match compileStage ctx d .post3 .post (passRules .pass4 rules) with
          | .error e => .error e
          | .ok pass4 =>
            let steps := correct ++ [.primary primary] ++ pass2 ++ pass3 ++ pass4
            .ok (match d with
              | .forward => steps
              | .backward => steps.reverse)

/-- table/primary.rs:1481-1690 `PrimaryTable::trace` returns `ts`. -/
def Primary.Traces (p : Primary) (cs : Case) (input : Text) (spans : List Span) (ts : List Resolved) : Prop :=
  ∃ enriched cons ind, (if p.triggers.isEmpty then enriched = spans
      else Enriches p.triggers p.classes.isWhitespace input spans enriched) ∧
    p.constrainers.precompute input enriched = .ok cons ∧
    p.indicators.precompute cs.lower input enriched = .ok ind ∧
    p.table.Traces cs cons (fun pos => (ind[pos]?).getD []) input ts

/-- pipeline.rs:18-24 `Transformation::trace`. -/
def Transform.Traces (cs : Case) (spans : List Span) (input : Text) (ts : List Resolved) : Transform → Prop
  | .pre t => t.Traces cs.lower input ts
  | .primary p => p.Traces cs input spans ts
  | .post t => t.Traces cs.lower input ts

/-- pipeline.rs:120-133 `trace_with_options`: one list of translations per step. -/
def Pipeline.Traces (cs : Case) (spans : List Span) : Text → List Transform → List (List Resolved) → Prop
  | _, [], tss => tss = []
  | input, step :: steps, tss =>
    ∃ ts rest, tss = ts :: rest ∧ step.Traces cs spans input ts ∧ Pipeline.Traces cs spans (outputOf ts) steps rest

/-- pipeline.rs:34-40 `Transformation::translate_with_options` (the outputs of the trace, multipass.rs:74-76,
table/primary.rs:1412-1417). -/
def Transform.Translates (cs : Case) (spans : List Span) (input output : Text) (t : Transform) : Prop :=
  ∃ ts, t.Traces cs spans input ts ∧ output = outputOf ts

/-- pipeline.rs:135-141 `translate` (with no spans) and `translate_with_options`. -/
def Pipeline.Translates (cs : Case) (spans : List Span) : Text → List Transform → Text → Prop
  | input, [], output => output = input
  | input, step :: steps, output =>
    ∃ mid, step.Translates cs spans input mid ∧ Pipeline.Translates cs spans mid steps output

/-- The errors of `Translator::new` and `Translator::from_table_source`. -/
inductive NewErr where
  | parse
  | includesNotSupportedInMemory
  | compile (e : CompileErr)
  deriving Repr, DecidableEq

/-- lib.rs:87-99 `Translator::from_table_source`, for the rules its text parses to (`none` if a line is not accepted). -/
def fromTableSource (sys : Sys) (parsed : Option (List Anchored)) (d : Direction) : Except NewErr (List Transform) :=
  match parsed with
  | none => .error .parse
  | some rules =>
    if rules.any (fun r => match r.rule with | .incl _ => true | _ => false) then .error .includesNotSupportedInMemory
    else match Pipeline.compile sys rules d with
      | .error e => .error (.compile e)
      | .ok p => .ok p

/-- lib.rs:68-81 `Translator::new`, for the expanded rules of each table (`none` if a table is not accepted). -/
def newTranslator (sys : Sys) (tables : List (Option (List Anchored))) (d : Direction) : Except NewErr (List Transform) :=
  if tables.any (·.isNone) then .error .parse
  else match Pipeline.compile sys ((tables.filterMap id).flatten) d with
    | .error e => .error (.compile e)
    | .ok p => .ok p

end Louis
