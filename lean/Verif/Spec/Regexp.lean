import Verif.Model.Regexp

/-!
# What a pattern means

An independent, declarative reading of the pattern language of `src/translator/regexp.rs`: a relation between a
position in the text before and after.  Nothing here mentions instructions, threads or the compiler.
-/

namespace Louis.Regexp

/-- A position in the text (bytes consumed, remaining text) with the current capture span. -/
structure St where
  sp : Nat
  rest : List Char
  cap : Nat × Nat
  deriving Repr, DecidableEq

/-- Consume one character. -/
def St.adv (s : St) (c : Char) (t : List Char) : St := ⟨s.sp + c.utf8Size, t, s.cap⟩

/-- Consume one character satisfying `p`. -/
def Eats (p : Char → Prop) (s s' : St) : Prop := ∃ c t, s.rest = c :: t ∧ p c ∧ s' = s.adv c t

/-- Consume one character for each element of the list, each satisfying `p` for it. -/
def EatsAll (p : Char → Char → Prop) : List Char → St → St → Prop
  | [], s, s' => s' = s
  | e :: es, s, s' => ∃ t, Eats (p e) s t ∧ EatsAll p es t s'

/-- `n` repetitions. -/
def Iter (R : St → St → Prop) : Nat → St → St → Prop
  | 0, s, s' => s' = s
  | n + 1, s, s' => ∃ t, R s t ∧ Iter R n t s'

/-- The language of a pattern: `Matches … r s s'` says that `r` can match the text between `s` and `s'`.
`rng min max n` says that the quantifier `{min,max}` admits `n` repetitions. -/
def MatchesWith (rng : Nat → Nat → Nat → Prop) (lower : Char → List Char) (env : Nat → Option Nat)
    (atStart : Bool) : Regexp → St → St → Prop
  | .literal c, s, s' => Eats (· = c) s s'
  | .concat l r, s, s' => ∃ t, MatchesWith rng lower env atStart l s t ∧ MatchesWith rng lower env atStart r t s'
  | .either l r, s, s' => MatchesWith rng lower env atStart l s s' ∨ MatchesWith rng lower env atStart r s s'
  | .optional r, s, s' => s' = s ∨ MatchesWith rng lower env atStart r s s'
  | .zeroOrMore r, s, s' => ∃ n, Iter (MatchesWith rng lower env atStart r) n s s'
  | .oneOrMore r, s, s' => ∃ n, 1 ≤ n ∧ Iter (MatchesWith rng lower env atStart r) n s s'
  | .any, s, s' => Eats (fun _ => True) s s'
  | .cls cs, s, s' => Eats (· ∈ cs) s s'
  | .notCls cs, s, s' => Eats (· ∉ cs) s s'
  | .repeatExactly n r, s, s' => Iter (MatchesWith rng lower env atStart r) n s s'
  | .repeatAtLeast n r, s, s' => ∃ k, n ≤ k ∧ Iter (MatchesWith rng lower env atStart r) k s s'
  | .repeatAtLeastAtMost n m r, s, s' => ∃ k, rng n m k ∧ Iter (MatchesWith rng lower env atStart r) k s s'
  | .capture r, s, s' => ∃ t, MatchesWith rng lower env atStart r { s with cap := (s.sp, 0) } t ∧
      s' = { t with cap := (t.cap.1, t.sp) }
  | .string cs, s, s' => EatsAll (fun e c => c = e) cs s s'
  | .notString cs, s, s' => EatsAll (fun e c => c ≠ e) cs s s'
  | .ciString cs, s, s' => EatsAll (fun e c => lower c = [e]) cs s s'
  | .varEq i v, s, s' => env i = some v ∧ s' = s
  | .notVarEq i v, s, s' => (∃ a, env i = some a ∧ a ≠ v) ∧ s' = s
  | .group r, s, s' => MatchesWith rng lower env atStart r s s'
  | .empty, s, s' => s' = s
  | .endAnchor, s, s' => s.rest = [] ∧ s' = s
  | .notEndAnchor, s, s' => s.rest ≠ [] ∧ s' = s
  | .startAnchor, s, s' => (atStart = true ∧ s.sp = 0) ∧ s' = s
  | .notStartAnchor, s, s' => ¬ (atStart = true ∧ s.sp = 0) ∧ s' = s
  | .never, _, _ => False

/-- The documented meaning of `{min,max}`. -/
def rangeSpec (min max n : Nat) : Prop := min ≤ n ∧ n ≤ max

/-- The intended language of a pattern. -/
abbrev Matches := MatchesWith rangeSpec

/-- The pattern uses no `{min,max}` quantifier. -/
def RangeFree : Regexp → Prop
  | .repeatAtLeastAtMost _ _ _ => False
  | .concat l r | .either l r => RangeFree l ∧ RangeFree r
  | .optional r | .zeroOrMore r | .oneOrMore r | .repeatExactly _ r | .repeatAtLeast _ r | .capture r | .group r =>
    RangeFree r
  | _ => True

/-- The start of a match: nothing consumed, nothing captured. -/
def St.init (input : List Char) : St := ⟨0, input, (0, 0)⟩

end Louis.Regexp
