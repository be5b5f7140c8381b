import Verif.Spec.Capitals
import Verif.Spec.Each

/-!
# The capital signs a text must get

Which capital signs a text gets, as a relation between its words and the list of signs with their positions.  Every word has to
be accounted for, so that the relation says what must be written, not only what may be.
-/

namespace Louis

/-- `[s, e)` is a word of the text: a maximal run of word characters. -/
structure IsWord (x : CapIndicator) (chars : Text) (s e : Nat) : Prop where
  nonempty : s < e
  le : e ≤ chars.length
  inside : ∀ k, s ≤ k → k < e → x.WordAt chars k
  before : 0 < s → ¬ x.WordAt chars (s - 1)
  after : ¬ x.WordAt chars e

/-- `ws` are all words of the text in order. -/
def AreWords (x : CapIndicator) (chars : Text) (ws : List (Nat × Nat)) : Prop :=
  (∀ w, w ∈ ws ↔ IsWord x chars w.1 w.2) ∧ ws.Pairwise (fun v w => v.2 < w.1)

/-- `runs` are all maximal runs of upper-case letters inside the words `ws`, in order. -/
def RunsIn (x : CapIndicator) (chars : Text) (ws runs : List (Nat × Nat)) : Prop :=
  (∀ r, r ∈ runs ↔ UpperRun x chars r.1 r.2 ∧ ∃ w ∈ ws, w.1 ≤ r.1 ∧ r.2 ≤ w.2) ∧ runs.Pairwise (fun r s => r.2 < s.1)

/-- No letter follows in the word that contains the position before `e`. -/
def EndsWord (x : CapIndicator) (chars : Text) (e : Nat) : Prop :=
  ∀ q, e ≤ q → (∀ k, e ≤ k → k ≤ q → x.WordAt chars k) → x.letterAt chars q = false

/-- The word goes on from `e` with a letter, at `q`, that is not upper-case. -/
def GoesOnAt (x : CapIndicator) (chars : Text) (e q : Nat) : Prop :=
  e ≤ q ∧ x.LowAt chars q ∧ ∀ k, e ≤ k → k < q → x.WordAt chars k ∧ x.letterAt chars k = false

/-- The sign, if there is one, at position `p`. -/
def signAt (p : Nat) : Option Resolved → List (Nat × Resolved)
  | none => []
  | some t => [(p, t)]

/-- The signs of one run `[p, e)`. -/
inductive RunCapSigns (x : CapIndicator) (chars : Text) (p e : Nat) : List (Nat × Resolved) → Prop where
  /-- a single letter gets the letter sign, if there is one -/
  | letter {t} : e = p + 1 → x.capsletter = some t → RunCapSigns x chars p e [(p, t)]
  /-- the word sign -/
  | word {b} : (e = p + 1 → x.capsletter = none) → x.begcapsword = some b → EndsWord x chars e →
      RunCapSigns x chars p e [(p, b)]
  /-- the word sign, and the terminator where the word goes on -/
  | terminated {b t q} : (e = p + 1 → x.capsletter = none) → x.begcapsword = some b → GoesOnAt x chars e q →
      x.endcapsword = some t → RunCapSigns x chars p e [(p, b), (q, t)]
  /-- without those, the mode signs around the run -/
  | mode {b} : (e = p + 1 → x.capsletter = none) →
      (x.begcapsword = none ∨ (x.endcapsword = none ∧ ∃ q, GoesOnAt x chars e q)) → x.begcaps = some b →
      RunCapSigns x chars p e ((p, b) :: signAt e x.endcaps)
  /-- and without those, the letter sign at each letter -/
  | letters {t} {ps : List Nat} : p + 1 < e → (x.begcapsword = none ∨ (x.endcapsword = none ∧ ∃ q, GoesOnAt x chars e q)) →
      x.begcaps = none → x.capsletter = some t → ps.Pairwise (· < ·) →
      (∀ i, i ∈ ps ↔ p ≤ i ∧ i < e ∧ x.upperAt chars i = true) → RunCapSigns x chars p e (ps.map fun i => (i, t))
  /-- or nothing at all -/
  | nothing : (x.begcapsword = none ∨ (x.endcapsword = none ∧ ∃ q, GoesOnAt x chars e q)) → x.begcaps = none →
      x.capsletter = none → RunCapSigns x chars p e []

/-- The signs of runs one after the other. -/
def RunsCapSigns (x : CapIndicator) (chars : Text) (runs : List (Nat × Nat)) (out : List (Nat × Resolved)) : Prop :=
  ∃ parts, Each (fun r o => RunCapSigns x chars r.1 r.2 o) runs parts ∧ out = parts.flatten

/-- A word in upper case: it has letters, and all of them are upper-case. -/
def CapWord (x : CapIndicator) (chars : Text) (w : Nat × Nat) : Prop :=
  (∃ i, w.1 ≤ i ∧ i < w.2 ∧ x.letterAt chars i = true) ∧ ∀ i, w.1 ≤ i → i < w.2 → ¬ x.LowAt chars i

/-- How a phrase whose last run is `l` is closed. -/
inductive PhraseClose (x : CapIndicator) (chars : Text) (l : Nat × Nat) : List (Nat × Resolved) → Prop where
  /-- with `endcapsphrase … before`: by the signs of the last word -/
  | before {t out} : x.endcapsphrase = some t → x.endcapsphraseBefore = true → RunCapSigns x chars l.1 l.2 out →
      PhraseClose x chars l out
  /-- with `endcapsphrase … after`: by that sign after the last letter -/
  | after {t} : x.endcapsphrase = some t → x.endcapsphraseBefore = false → PhraseClose x chars l [(l.2, t)]
  /-- otherwise by the end of the mode, if there is a sign for it -/
  | mode : x.endcapsphrase = none → PhraseClose x chars l (signAt l.2 x.endcaps)

/-- The signs of words in upper case that follow each other, with the runs `runs`. -/
inductive BlockSigns (x : CapIndicator) (chars : Text) (runs : List (Nat × Nat)) : List (Nat × Resolved) → Prop where
  /-- a phrase -/
  | phrase {b f l close} : x.lenPhrase ≤ spacedWords x chars runs → x.begcapsphrase = some b → runs.head? = some f →
      runs.getLast? = some l → PhraseClose x chars l close → BlockSigns x chars runs ((f.1, b) :: close)
  /-- a passage in the mode, if there is no sign for phrases -/
  | mode {b f l} : x.lenPhrase ≤ spacedWords x chars runs → x.begcapsphrase = none → x.begcaps = some b →
      runs.head? = some f → runs.getLast? = some l → BlockSigns x chars runs ((f.1, b) :: signAt l.2 x.endcaps)
  /-- word by word -/
  | words {out} : (spacedWords x chars runs < x.lenPhrase ∨ (x.begcapsphrase = none ∧ x.begcaps = none)) →
      RunsCapSigns x chars runs out → BlockSigns x chars runs out

/-- The signs of a list of words. -/
inductive CapSigns (x : CapIndicator) (chars : Text) : List (Nat × Nat) → List (Nat × Resolved) → Prop where
  | done : CapSigns x chars [] []
  /-- a word that is not in upper case: its runs of upper-case letters -/
  | mixed {w ws runs out rest} : ¬ CapWord x chars w → RunsIn x chars [w] runs → RunsCapSigns x chars runs out →
      CapSigns x chars ws rest → CapSigns x chars (w :: ws) (out ++ rest)
  /-- as many words in upper case as follow each other -/
  | block {bs ws runs out rest} : bs ≠ [] → (∀ w ∈ bs, CapWord x chars w) → (∀ w, ws.head? = some w → ¬ CapWord x chars w) →
      RunsIn x chars bs runs → BlockSigns x chars runs out → CapSigns x chars ws rest →
      CapSigns x chars (bs ++ ws) (out ++ rest)

end Louis
