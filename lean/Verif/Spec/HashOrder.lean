import Verif.Spec.MainRun

/-!
# When the order of hash maps does not matter

Of the replacements the dictionary offers for a place the heaviest one is used.  If two different ones are equally heavy, the
order in which a hash map lists its entries decides between them.
-/

namespace Louis

/-- There are no two different heaviest replacements. -/
def OneHeaviest (P : Resolved → Prop) : Prop :=
  ∀ o o', P o → P o' → (∀ x, P x → x.weight ≤ o.weight) → (∀ x, P x → x.weight ≤ o'.weight) → o = o'

/-- After the items, the replacement may be used: punctuation only before and after words, single cells not where a digit is
expected, only single characters in numbers, and nothing is inserted twice. -/
def MainTable.mayBeUsed (T : MainTable) (flags : Constraints) (input : Text) (made : List Made) (o : Resolved) : Bool :=
  allowedHere flags (placeOf made) o &&
  !(decide (T.dir = .backward ∧ flags.preferDigit (placeOf made) = true) &&
    ((input.drop (placeOf made)).head?.bind fun c => T.digits.find? (·.1 == c)).isSome && o.length == 1) &&
  (!flags.dontContract (placeOf made) || decide (o.length ≤ 1)) && !(spentOn made).contains o.subset

/-- After the items, no two different replacements compete. -/
structure MainTable.Untied (T : MainTable) (lower : Char → List Char) (flags : Constraints) (input : Text) (made : List Made) :
    Prop where
  entries : flags.useComp6 (placeOf made) = false → OneHeaviest fun o =>
    T.Offers lower T.entries (input.drop (placeOf made)) (dealtWith (itemsOf made)).getLast? o ∧
    T.mayBeUsed flags input made o = true
  computer : flags.useComp6 (placeOf made) = true → OneHeaviest fun o =>
    T.Offers lower T.computer (input.drop (placeOf made)) (dealtWith (itemsOf made)).getLast? o ∧ o.subset ∉ spentOn made
  unbroken : OneHeaviest fun o =>
    T.Offers lower T.unbroken (input.drop (placeOf made)) (dealtWith (itemsOf made)).getLast? o ∧
    ∀ i < o.length - 1, flags.hyphenationBreak (placeOf made + i) = false

end Louis
