import Verif.Model.Types

/-!
# Model of `src/translator/table/multipass.rs` and `src/translator/context_pattern.rs`
-/

namespace Louis

open Regexp (Fault Compiled Regexp)

/-! ## Tests and actions (parser/multipass/test.rs, action.rs) -/

/-- test.rs:64-70 `enum Operator`. -/
inductive Operator where
  | eq | gt | lt | gtEq | ltEq
  deriving Repr, DecidableEq

/-- test.rs:73-77 `enum Quantifier`. -/
inductive Quantifier where
  | number (n : Nat)
  | range (min max : Nat)
  | oneOrMore
  deriving Repr, DecidableEq

/-- test.rs:80-115 `enum TestInstruction`; `dots` is already converted to Unicode. -/
inductive TestInstr where
  | lookback (len : Nat)
  | varTest (slot : Nat) (op : Operator) (operand : Nat)
  | string (s : Text)
  | dots (s : Text)
  | attributes (attrs : List Attr) (q : Option Quantifier)
  | cls (name : Text) (q : Option Quantifier)
  | negate (t : TestInstr)
  | replace (ts : List TestInstr)
  | atBeginning
  | atEnd
  deriving Repr

/-- action.rs:59-68 `enum ActionInstruction`. -/
inductive ActionInstr where
  | string (s : Text)
  | dots (s : Text)
  | swapClass (name : Text)
  | assignment (slot value : Nat)
  | increment (slot : Nat)
  | decrement (slot : Nat)
  | replace
  | ignore
  deriving Repr, DecidableEq

/-- action.rs:82-99 `consumes_input`. -/
def ActionInstr.consumesInput : ActionInstr → Bool
  | .string _ => true
  | .dots _ => true
  | _ => false

/-- test.rs:23-35 `add_implicit_replace`. -/
def addImplicitReplace (ts : List TestInstr) : List TestInstr :=
  if ts.any (fun t => match t with | .replace _ => true | _ => false) then ts else [.replace ts]

/-- The quantifier part of context_pattern.rs:82-98 and 119-135. -/
def quantified (cs : List Char) : Option Quantifier → Regexp
  | none => .cls cs
  | some (.number n) => .repeatExactly n (.cls cs)
  | some (.range a b) => .repeatAtLeastAtMost a b (.cls cs)
  | some .oneOrMore => .oneOrMore (.cls cs)

/-- context_pattern.rs:79-99 `from_class`: an unknown class has no members. -/
def fromClass (ctx : CharClasses) (name : Text) (q : Option Quantifier) : Regexp :=
  quantified ((ctx.get (CharClass.ofName name)).getD []) q

/-- context_pattern.rs:101-136 `from_multipass_attributes`: only classes contribute characters. -/
def fromAttributes (ctx : CharClasses) (attrs : List Attr) (q : Option Quantifier) : Regexp :=
  quantified (attrs.flatMap fun
    | .cls k => (ctx.get k).getD []
    | _ => []) q

mutual
/-- context_pattern.rs:38-77 `from_instruction`; `none` is a panic (`todo!`, or `unreachable!` inside `negate`). -/
def fromInstr (ctx : CharClasses) : TestInstr → Option Regexp
  | .lookback _ => some .empty
  | .varTest v .eq o => some (.varEq v o)
  | .varTest _ _ _ => none
  | .string s => some (.string s)
  | .dots s => some (.string s)
  | .attributes as q => some (fromAttributes ctx as q)
  | .cls n q => some (fromClass ctx n q)
  | .negate t => (fromInstr ctx t).bind Regexp.negate
  | .replace ts => (fromInstrs ctx ts).map .capture
  | .atBeginning => some .startAnchor
  | .atEnd => some .endAnchor
/-- context_pattern.rs:23-36 `from_instructions`. -/
def fromInstrs (ctx : CharClasses) : List TestInstr → Option Regexp
  | [] => some .empty
  | t :: ts => (fromInstr ctx t).bind fun r => fromRest ctx r ts
/-- context_pattern.rs:29-32, the loop over the remaining instructions. -/
def fromRest (ctx : CharClasses) (acc : Regexp) : List TestInstr → Option Regexp
  | [] => some acc
  | t :: ts => (fromInstr ctx t).bind fun r => fromRest ctx (.concat acc r) ts
end

/-- The ways compiling a table can fail: a `TranslationError`, or a panic. -/
inductive CompileErr where
  | swapClassNotDefined (name : Text)
  | implicitCharacterNotDefined (c : Char)
  | hyphenationTable
  | panic
  deriving Repr, DecidableEq

/-- context_pattern.rs:140-160 `TranslationTarget::from_instruction`. -/
def targetOf (swaps : SwapClasses) : ActionInstr → Except CompileErr Target
  | .string s => .ok (.literal s)
  | .dots s => .ok (.literal s)
  | .swapClass n => match swaps.get n with
    | some s => .ok (.swap s)
    | none => .error (.swapClassNotDefined n)
  | .replace => .ok .capture
  | .ignore => .ok (.literal [])
  | .assignment _ _ | .increment _ | .decrement _ => .ok (.literal [])

/-- context_pattern.rs:164-173 `from_instructions`. -/
def targetsOf (swaps : SwapClasses) : List ActionInstr → Except CompileErr (List Target)
  | [] => .ok []
  | a :: as => match targetOf swaps a with
    | .error e => .error e
    | .ok t => match targetsOf swaps as with
      | .error e => .error e
      | .ok ts => .ok (t :: ts)

/-- context_pattern.rs:181-187 `Effects::from_instructions`: only assignments have an effect. -/
def effectsOf (as : List ActionInstr) : List Effect :=
  as.filterMap fun
    | .assignment v x => some (Effect.new v x)
    | _ => none

/-- context_pattern.rs:229-251 `ContextPatternsBuilder::insert` (with `translation`), producing one compiled pattern.
`ctx` are the classes chosen for the stage (context_pattern.rs:242-247). -/
def compilePattern (ctx : CharClasses) (swaps : SwapClasses) (stage : Stage) (prec : Prec) (origin : Origin)
    (test : List TestInstr) (action : List ActionInstr) : Except CompileErr (Compiled Translation) :=
  match targetsOf swaps action with
  | .error e => .error e
  | .ok targets =>
    match fromInstrs ctx (addImplicitReplace test) with
    | none => .error .panic
    | some r => .ok (Regexp.compile r (.unresolved ⟨targets, prec, stage, effectsOf action, some origin⟩))

/-! ## The multipass translator -/

/-- multipass.rs:16-20 `struct MultipassTable`. -/
structure MultipassTable where
  patterns : List (Compiled Translation)
  stage : Stage

/-- One multipass rule: test, action and rule number (`correct`, `pass2`, `pass3`, `pass4`, parser.rs). -/
structure PassRule where
  test : List TestInstr
  action : List ActionInstr
  origin : Origin

/-- multipass.rs:45-72 `MultipassTable::compile`. The precedence of these opcodes is `Default` (parser.rs:1068). -/
def compilePass (ctx : CharClasses) (swaps : SwapClasses) (direction : Direction) (stage : Stage) :
    List PassRule → Except CompileErr (List (Compiled Translation))
  | [] => .ok []
  | r :: rs =>
    if direction = .backward ∧ ¬ r.action.any (·.consumesInput) then compilePass ctx swaps direction stage rs
    else match compilePattern ctx swaps stage .default r.origin r.test r.action with
      | .error e => .error e
      | .ok p => match compilePass ctx swaps direction stage rs with
        | .error e => .error e
        | .ok ps => .ok (p :: ps)

/-- The local variables of `trace` (multipass.rs:112-117); `rest` is the remaining input. -/
structure MpState where
  rest : Text
  env : Env
  delayed : List Resolved
  seen : List Subset
  out : List Resolved

/-- Start of `trace`. -/
def MpState.init (input : Text) : MpState := ⟨input, Env.new, [], [], []⟩

/-- multipass.rs:119-178, one iteration of the loop; `none` is `break`.  `at_start` compares the byte lengths of the
remaining and the whole input. -/
def mpStep (t : MultipassTable) (lower : Char → List Char) (input : Text) (s : MpState) :
    Except Fault (Option MpState) :=
  let atStart := Regexp.utf8Len s.rest == Regexp.utf8Len input
  match patternsFind t.patterns lower s.rest s.env atStart with
  | .error e => .error e
  | .ok found =>
    let delayed := s.delayed ++ found.filter (·.offset != 0)
    let candidates := found.filter (·.offset == 0) ++ delayed.filter (·.offset == 0)
    let delayed := delayed.filter (·.offset != 0)
    match heaviest (candidates.filter fun c => !s.seen.contains c.subset) with
    | some c =>
      match s.env.applyAll c.effects with
      | .error e => .error e
      | .ok env =>
        .ok (some {
          rest := if c.length = 0 then s.rest else s.rest.drop c.length
          env
          delayed := updateOffsets delayed c.length
          seen := if c.length = 0 then c.subset :: s.seen else []
          out := s.out ++ [c] })
    | none =>
      match s.rest with
      | [] => .ok none
      | c :: rest => .ok (some {
          rest
          env := s.env
          delayed := updateOffsets delayed 1
          seen := s.seen
          out := s.out ++ [Resolved.new [c] [c] 1 t.stage none] })

/-- multipass.rs:119-178, the loop.  The Rust loop has no fuel: `C06` shows that enough fuel always exists. -/
def mpLoop (t : MultipassTable) (lower : Char → List Char) (input : Text) :
    Nat → MpState → Except Fault (List Resolved)
  | 0, _ => .error .outOfFuel
  | fuel + 1, s =>
    match mpStep t lower input s with
    | .error e => .error e
    | .ok none => .ok s.out
    | .ok (some s') => mpLoop t lower input fuel s'

/-- `trace` returns `ts`: the loop finishes with result `ts`. -/
def MultipassTable.Traces (t : MultipassTable) (lower : Char → List Char) (input : Text) (ts : List Resolved) : Prop :=
  ∃ fuel, mpLoop t lower input fuel (MpState.init input) = .ok ts

/-- multipass.rs:74-76 `translate`: the outputs of the trace, concatenated. -/
def outputOf (ts : List Resolved) : Text := ts.flatMap (·.output)

end Louis
