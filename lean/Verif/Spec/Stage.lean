import Verif.Spec.Passes

/-!
# What a multipass stage does, exactly

The next item of a trace as a function of the items before it.  Nothing here mentions regular expressions, held translations
or the state of a loop.
-/

namespace Louis

/-- A multipass stage: the lines of its opcode that are used in the direction, in the order of the table, and the classes and
swaps they may refer to. -/
structure PassTable where
  classes : CharClasses
  swaps : SwapClasses
  stage : Stage
  lines : List PassRule

/-- What an action writes for the bracketed text `y`. -/
def actionText (swaps : SwapClasses) (y : Text) : ActionInstr → Text
  | .string s | .dots s => s
  | .replace => y
  | .swapClass n => match swaps.get n with
    | some s => s.swap y
    | none => []
  | _ => []

/-- The variables an action sets. -/
def settingOf : ActionInstr → Option Effect
  | .assignment v x => some ⟨v, .set x⟩
  | _ => none

/-- What a line offers to a reader of `text`: a replacement for what its brackets hold, `offset` characters from here, which
weighs as much as all that its test has read. -/
def PassTable.offer (T : PassTable) (env : Env) (atStart : Bool) (text : Text) (line : PassRule) : Option Resolved :=
  (stretchOf T.classes env atStart line.test text).map fun s =>
    { input := s.inside, output := line.action.flatMap (actionText T.swaps s.inside), length := s.inside.length
      weight := s.before.length + s.inside.length + s.after.length, offset := s.before.length, prec := .default
      stage := T.stage, effects := line.action.filterMap settingOf, origin := some line.origin }

/-- The text the items have dealt with. -/
def dealtWith (items : List Resolved) : Text := items.flatMap (·.input)

/-- The value of variable `v` after an update. -/
def updated (v : Nat) (old : Option Nat) (e : Effect) : Option Nat :=
  match e.kind with
  | .set x => if v = e.slot then some x else old
  | _ => old

/-- The values of the variables: for each the last one that an item has set. -/
def settings (items : List Resolved) : Env := fun v => (items.flatMap (·.effects)).foldl (updated v) none

/-- What the lines offer after the items: to a reader of the rest of the text, with the variables as they are. -/
def PassTable.offers (T : PassTable) (input : Text) (items : List Resolved) : List Resolved :=
  T.lines.filterMap (T.offer (settings items) (dealtWith items).isEmpty (input.drop (dealtWith items).length))

/-- The last item has dealt with some text: this place has just been reached. -/
def arrived (items : List Resolved) : Bool := items.getLast?.all (·.length != 0)

/-- The replacements offered for this place by lines read from earlier places, where `offers` says what is offered after which
items.  (Sic: only once, when the place has just been reached.) -/
def fromEarlier (offers : List Resolved → List Resolved) (items : List Resolved) : List Resolved :=
  if arrived items then
    ((List.range items.length).flatMap fun i =>
      (offers (items.take i)).filter fun o =>
        o.offset != 0 && (dealtWith (items.take i)).length + o.offset == (dealtWith items).length).map ({ · with offset := 0 })
  else []

/-- The replacements offered for this place: those of lines read from here, then those of lines read from earlier places. -/
def PassTable.choices (T : PassTable) (input : Text) (items : List Resolved) : List Resolved :=
  (T.offers input items).filter (·.offset == 0) ++ fromEarlier (T.offers input) items

/-- The replacements of nothing that have been made since some text was last replaced: they are not made again.  (Sic: not
even when the stage has moved on to another place.) -/
def spent (items : List Resolved) : List Subset :=
  items.foldl (fun old o => if o.origin = none then old else if o.length = 0 then o.subset :: old else []) []

/-- The last of the heaviest. -/
def lastHeaviest (l : List Resolved) : Option Resolved :=
  l.foldl (fun best o => match best with
    | none => some o
    | some b => if b.weight ≤ o.weight then some o else some b) none

/-- The next item: the last of the heaviest replacements offered for this place that are not spent; if there is none, the
next character, unchanged. -/
def PassTable.next (T : PassTable) (input : Text) (items : List Resolved) : Option Resolved :=
  match lastHeaviest ((T.choices input items).filter fun o => !(spent items).contains o.subset) with
  | some o => some o
  | none => (input.drop (dealtWith items).length).head?.map fun c => Resolved.new [c] [c] 1 T.stage none

/-- The items are what the stage makes of the text. -/
structure PassTable.Run (T : PassTable) (input : Text) (items : List Resolved) : Prop where
  each : ∀ i (h : i < items.length), T.next input (items.take i) = some items[i]
  last : T.next input items = none

end Louis
