import Verif.Spec.Regexp

/-!
# Leftmost-first preference

`prefs … r s` lists the positions at which a match of `r` starting at `s` can end, most preferred first, as a
backtracking matcher would try them: the left alternative before the right one, one more iteration before leaving a
loop (an iteration that consumes nothing is not tried).
-/

namespace Louis.Regexp

/-- Consume one character satisfying `p`. -/
def eat (p : Char → Bool) (s : St) : List St :=
  match s.rest with
  | [] => []
  | c :: t => if p c then [s.adv c t] else []

def eatAll (p : Char → Char → Bool) : List Char → St → List St
  | [], s => [s]
  | e :: es, s => (eat (p e) s).flatMap (eatAll p es)

/-- `n` repetitions. -/
def timesPrefs (step : St → List St) : Nat → St → List St
  | 0, s => [s]
  | n + 1, s => (step s).flatMap (timesPrefs step n)

/-- Greedy repetition; `fuel` bounds the number of iterations, each of which consumes something. -/
def starPrefs (step : St → List St) : Nat → St → List St
  | 0, s => [s]
  | fuel + 1, s =>
    (step s).flatMap (fun t => if t.rest.length < s.rest.length then starPrefs step fuel t else []) ++ [s]

def prefs (lower : Char → List Char) (env : Nat → Option Nat) (atStart : Bool) : Regexp → St → List St
  | .literal c, s => eat (· == c) s
  | .concat l r, s => (prefs lower env atStart l s).flatMap (prefs lower env atStart r)
  | .either l r, s => prefs lower env atStart l s ++ prefs lower env atStart r s
  | .optional r, s => prefs lower env atStart r s ++ [s]
  | .zeroOrMore r, s => starPrefs (prefs lower env atStart r) s.rest.length s
  | .oneOrMore r, s =>
    (prefs lower env atStart r s).flatMap fun t => starPrefs (prefs lower env atStart r) t.rest.length t
  | .any, s => eat (fun _ => true) s
  | .cls cs, s => eat cs.contains s
  | .notCls cs, s => eat (!cs.contains ·) s
  | .repeatExactly n r, s => timesPrefs (prefs lower env atStart r) n s
  | .repeatAtLeast n r, s =>
    (timesPrefs (prefs lower env atStart r) n s).flatMap fun t =>
      starPrefs (prefs lower env atStart r) t.rest.length t
  -- between `n` and `m` copies, as many as possible first
  | .repeatAtLeastAtMost n m r, s =>
    (timesPrefs (prefs lower env atStart r) n s).flatMap fun t =>
      starPrefs (prefs lower env atStart r) (min (m - n) t.rest.length) t
  | .capture r, s =>
    (prefs lower env atStart r { s with cap := (s.sp, 0) }).map fun t => { t with cap := (t.cap.1, t.sp) }
  | .string cs, s => eatAll (fun e c => c == e) cs s
  | .notString cs, s => eatAll (fun e c => c != e) cs s
  | .ciString cs, s => eatAll (fun e c => lower c == [e]) cs s
  | .varEq i v, s => if env i = some v then [s] else []
  | .notVarEq i v, s => if (env i).any (· != v) then [s] else []
  | .group r, s => prefs lower env atStart r s
  | .empty, s => [s]
  | .endAnchor, s => if s.rest.isEmpty then [s] else []
  | .notEndAnchor, s => if s.rest.isEmpty then [] else [s]
  | .startAnchor, s => if atStart = true ∧ s.sp = 0 then [s] else []
  | .notStartAnchor, s => if atStart = true ∧ s.sp = 0 then [] else [s]
  | .never, _ => []

/-- The pattern may match the empty text (an over-approximation). -/
def nullable : Regexp → Bool
  | .concat l r => nullable l && nullable r
  | .either l r => nullable l || nullable r
  | .optional _ | .zeroOrMore _ => true
  | .oneOrMore r | .capture r | .group r => nullable r
  | .repeatExactly n r => n == 0 || nullable r
  | .repeatAtLeast n r => n == 0 || nullable r
  | .repeatAtLeastAtMost n _ r => n == 0 || nullable r
  | .string s | .notString s | .ciString s => s.isEmpty
  | .literal _ | .any | .cls _ | .notCls _ => false
  | _ => true

/-- No loop over a body that may match the empty text, and no `{min,max}` (see C02). -/
def SimpleLoops : Regexp → Prop
  | .repeatAtLeastAtMost _ _ _ => False
  | .concat l r | .either l r => SimpleLoops l ∧ SimpleLoops r
  | .zeroOrMore r | .oneOrMore r | .repeatAtLeast _ r => nullable r = false ∧ SimpleLoops r
  | .optional r | .repeatExactly _ r | .capture r | .group r => SimpleLoops r
  | _ => True

end Louis.Regexp
