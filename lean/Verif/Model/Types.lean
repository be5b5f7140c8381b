import Verif.Model.Regexp

/-!
# Shared types: effects, swaps, character classes, translations

Models `src/translator/effect.rs`, `src/translator/swap.rs`, `src/translator/translation.rs`,
`src/parser/character_class.rs` and `src/parser/attribute.rs`.

Conventions: a Rust `String` is a list of characters; `usize` is `Nat`; a `HashMap` is an association list searched
from the front (first binding found) and a `HashSet` a list of members, unless stated otherwise.
-/

namespace Louis

open Regexp (Fault Compiled Found findAnchored)

abbrev Text := List Char

/-- parser.rs `enum Direction`. -/
inductive Direction where
  | forward
  | backward
  deriving Repr, DecidableEq

/-! ## Effects (effect.rs) -/

/-- effect.rs:4-8. -/
inductive EffectKind where
  | increment
  | decrement
  | set (v : Nat)
  deriving Repr, DecidableEq

/-- effect.rs:11-14. -/
structure Effect where
  slot : Nat
  kind : EffectKind
  deriving Repr, DecidableEq

/-- effect.rs:17-22 `Effect::new`, the only constructor available outside the module. -/
def Effect.new (slot value : Nat) : Effect := ⟨slot, .set value⟩

/-- effect.rs:25 `struct Environment(HashMap<u8, u8>)`: slot to value. -/
abbrev Env := Nat → Option Nat

/-- effect.rs:28-30. -/
def Env.new : Env := fun _ => none

/-- `entry(slot).and_modify(f).or_insert(v)`. -/
def Env.put (env : Env) (slot v : Nat) : Env := fun i => if i = slot then some v else env i

/-- effect.rs:36-55 `Environment::apply`.  `*v += 1` overflows at 255 (panic in a debug build). -/
def Env.apply (env : Env) (e : Effect) : Except Fault Env :=
  match e.kind with
  | .increment =>
    match env e.slot with
    | none => .ok (env.put e.slot 1)
    | some v => if v + 1 > 255 then .error .panic else .ok (env.put e.slot (v + 1))
  | .decrement =>
    match env e.slot with
    | none => .ok (env.put e.slot 0)
    | some v => .ok (env.put e.slot (if v > 0 then v - 1 else 0))
  | .set v => .ok (env.put e.slot v)

/-- `for effect in t.effects() { env.apply(effect) }` (table/multipass.rs:156-161, table/primary.rs:1646-1651). -/
def Env.applyAll (env : Env) : List Effect → Except Fault Env
  | [] => .ok env
  | e :: es => match env.apply e with
    | .error f => .error f
    | .ok env => Env.applyAll env es

/-! ## Swaps (swap.rs) -/

/-- swap.rs:11 `struct Swapper(HashMap<char, String>)`, as the list of mappings it is built from. -/
structure Swapper where
  mappings : List (Char × Text)
  deriving Repr, DecidableEq

/-- swap.rs:14-18: `HashMap::from_iter` keeps the last mapping of a character. -/
def Swapper.get (s : Swapper) (c : Char) : Option Text := (s.mappings.reverse.find? (·.1 == c)).map (·.2)

/-- swap.rs:21-26 `Swapper::swap`. -/
def Swapper.swap (s : Swapper) (input : Text) : Text := input.flatMap fun c => (s.get c).getD [c]

/-- swap.rs:31 `struct SwapClasses(HashMap<String, Swapper>)`; `insert` replaces an earlier class. -/
abbrev SwapClasses := List (Text × Swapper)

/-- swap.rs:41-43 `SwapClasses::insert`. -/
def SwapClasses.insert (cs : SwapClasses) (name : Text) (m : List (Char × Text)) : SwapClasses := (name, ⟨m⟩) :: cs

/-- swap.rs:45-47 `SwapClasses::get`. -/
def SwapClasses.get (cs : SwapClasses) (name : Text) : Option Swapper := (cs.find? (·.1 == name)).map (·.2)

/-! ## Character classes (character_class.rs) -/

/-- character_class.rs:21-35. -/
inductive CharClass where
  | space | digit | litdigit | letter | uppercase | lowercase | punctuation | sign | math
  | seqdelimiter | seqbeforechars | seqafterchars
  | user (name : Text)
  deriving Repr, DecidableEq

/-- character_class.rs:37-53 `From<&str>`.  Note that `litdigit` and `math` are not recognised. -/
def CharClass.ofName (name : Text) : CharClass :=
  if name = "space".toList then .space
  else if name = "digit".toList then .digit
  else if name = "letter".toList then .letter
  else if name = "uppercase".toList then .uppercase
  else if name = "lowercase".toList then .lowercase
  else if name = "punctuation".toList then .punctuation
  else if name = "sign".toList then .sign
  else if name = "seqdelimiter".toList then .seqdelimiter
  else if name = "seqbeforechars".toList then .seqbeforechars
  else if name = "seqafterchars".toList then .seqafterchars
  else .user name

/-- character_class.rs:57 `struct CharacterClasses(HashMap<CharacterClass, HashSet<char>>)`, as the list of
(class, character) pairs inserted so far. -/
abbrev CharClasses := List (CharClass × Char)

/-- character_class.rs:66-68 `insert`. -/
def CharClasses.insert (cs : CharClasses) (k : CharClass) (c : Char) : CharClasses := cs ++ [(k, c)]

/-- Is the character in the class?  `get(class).is_some_and(|s| s.contains(&c))`, character_class.rs:105-134. -/
def CharClasses.has (cs : CharClasses) (k : CharClass) (c : Char) : Bool := cs.contains (k, c)

/-- character_class.rs:101-103 `get`: the members; `none` if nothing was ever inserted. -/
def CharClasses.get (cs : CharClasses) (k : CharClass) : Option (List Char) :=
  match cs.filter (·.1 == k) with
  | [] => none
  | l => some (l.map (·.2))

/-- character_class.rs:105-108. -/
def CharClasses.isPunctuation (cs : CharClasses) (c : Char) : Bool := cs.has .punctuation c
/-- character_class.rs:110-113. -/
def CharClasses.isWhitespace (cs : CharClasses) (c : Char) : Bool := cs.has .space c
/-- character_class.rs:115-119. -/
def CharClasses.isNumeric (cs : CharClasses) (c : Char) : Bool := cs.has .litdigit c || cs.has .digit c
/-- character_class.rs:121-129. -/
def CharClasses.isWord (cs : CharClasses) (c : Char) : Bool :=
  cs.has .letter c || cs.has .uppercase c || cs.has .lowercase c
/-- character_class.rs:131-134. -/
def CharClasses.isSign (cs : CharClasses) (c : Char) : Bool := cs.has .sign c

/-- attribute.rs:3-9 `enum Attribute`. -/
inductive Attr where
  | cls (c : CharClass)
  | byOrder (n : Nat)
  | boundary
  | any
  deriving Repr, DecidableEq

/-! ## Translations (translation.rs) -/

/-- translation.rs:11-24. -/
inductive Stage where
  | pre | main | post1 | post2 | post3
  deriving Repr, DecidableEq

/-- parser.rs:1025-1038 `enum Precedence`, ordered as declared. -/
inductive Prec where
  | default | indicator | translation
  deriving Repr, DecidableEq

/-- Position in the derived order. -/
def Prec.rank : Prec → Nat
  | .default => 0
  | .indicator => 1
  | .translation => 2

/-- The part of the originating rule that the translator looks at (primary.rs:1550-1554): whether it is a `prepunc` or
a `postpunc` rule.  The other fields of `AnchoredRule` are represented by the rule number. -/
inductive OriginKind where
  | prepunc | postpunc | other
  deriving Repr, DecidableEq

structure Origin where
  kind : OriginKind
  id : Nat
  deriving Repr, DecidableEq

/-- translation.rs:43-50. -/
inductive Target where
  | literal (s : Text)
  | capture
  | swap (s : Swapper)
  deriving Repr, DecidableEq

/-- translation.rs:65-71 `TranslationTarget::resolve` followed by `to_string`. -/
def Target.resolve (t : Target) (capture : Text) : Text :=
  match t with
  | .literal s => s
  | .capture => capture
  | .swap s => s.swap capture

/-- translation.rs:167-193 `struct ResolvedTranslation`. -/
structure Resolved where
  input : Text
  output : Text
  length : Nat
  weight : Nat
  offset : Nat
  prec : Prec
  stage : Stage
  effects : List Effect
  origin : Option Origin
  deriving Repr, DecidableEq

/-- translation.rs:216-238 `ResolvedTranslation::new`: the precedence is always `Default`, the offset 0. -/
def Resolved.new (input output : Text) (weight : Nat) (stage : Stage) (origin : Option Origin) : Resolved :=
  { input, output, length := input.length, weight, offset := 0, prec := .default, stage, effects := [], origin }

/-- translation.rs:90-96 `struct UnresolvedTranslation`. -/
structure Unresolved where
  output : List Target
  prec : Prec
  stage : Stage
  effects : List Effect
  origin : Option Origin
  deriving Repr, DecidableEq

/-- translation.rs:117-137 `UnresolvedTranslation::resolve`. -/
def Unresolved.resolve (u : Unresolved) (capture : Text) (weight offset : Nat) : Resolved :=
  { input := capture, output := u.output.flatMap (·.resolve capture), length := capture.length, weight, offset,
    prec := u.prec, stage := u.stage, effects := u.effects, origin := u.origin }

/-- translation.rs:141-144. -/
inductive Translation where
  | resolved (t : Resolved)
  | unresolved (u : Unresolved)
  deriving Repr, DecidableEq

/-- translation.rs:152-161. -/
def Translation.resolve (t : Translation) (capture : Text) (weight offset : Nat) : Resolved :=
  match t with
  | .resolved t => { t with weight, offset }
  | .unresolved u => u.resolve capture weight offset

/-- translation.rs:197-202 `TranslationSubset`. -/
structure Subset where
  input : Text
  output : Text
  length : Nat
  weight : Nat
  deriving Repr, DecidableEq

def Resolved.subset (t : Resolved) : Subset := ⟨t.input, t.output, t.length, t.weight⟩

/-- `max_by_key(|t| t.weight())`: the last of the heaviest elements. -/
def heaviest : List Resolved → Option Resolved
  | [] => none
  | t :: ts =>
    match heaviest ts with
    | none => some t
    | some u => if t.weight ≤ u.weight then some u else some t

/-- multipass.rs:91-102, primary.rs:1392-1403 `update_offsets`. -/
def updateOffsets (ts : List Resolved) (decrement : Nat) : List Resolved :=
  (ts.filter (·.offset ≥ decrement)).map fun t => { t with offset := t.offset - decrement }

/-- context_pattern.rs:269-274 `ContextPatterns::find`, match_pattern.rs:169-174 `MatchPatterns::find` (with an empty
environment): the results of all the patterns that match, in order. -/
def patternsFind (ps : List (Compiled Translation)) (lower : Char → List Char) (input : Text) (env : Env)
    (atStart : Bool) : Except Fault (List Resolved) :=
  match ps with
  | [] => .ok []
  | p :: ps =>
    match findAnchored p lower input env atStart with
    | .error e => .error e
    | .ok r =>
      match patternsFind ps lower input env atStart with
      | .error e => .error e
      | .ok rs =>
        match r with
        | none => .ok rs
        | some f => .ok (f.payload.resolve f.capture f.length f.offset :: rs)

end Louis
