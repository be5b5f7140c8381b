import Verif.Model.Indicators

/-!
# Which emphasis signs a text gets

Independent of the loops of the program: maximal stretches of emphasised text, the words in them, and the signs of each stretch.
-/

namespace Louis

/-- Position `i` of the text separates words for the class: its character is one of the characters of the mode, if the class has such, and
otherwise a space. -/
def SepAt (x : EmphClass) (text : Text) (i : Nat) : Prop :=
  ∃ c, text[i]? = some c ∧ ((x.modeChars = [] ∧ c ∈ x.spaces) ∨ c ∈ x.modeChars)

/-- A maximal stretch `[start, stop)` of positions with the property. -/
structure Stretch (P : Nat → Prop) (start stop : Nat) : Prop where
  nonempty : start < stop
  all : ∀ i, start ≤ i → i < stop → P i
  before : ∀ i, i + 1 = start → ¬ P i
  after : ¬ P stop

/-- `w` is a word of the stretch: a maximal piece of it without separators. -/
def WordIn (x : EmphClass) (text : Text) (start stop : Nat) (w : Nat × Nat) : Prop :=
  Stretch (fun i => start ≤ i ∧ i < stop ∧ ¬ SepAt x text i) w.1 w.2

/-- `ws` are the words of the stretch, in order. -/
def WordsIn (x : EmphClass) (text : Text) (start stop : Nat) (ws : List (Nat × Nat)) : Prop :=
  (∀ w, w ∈ ws ↔ WordIn x text start stop w) ∧ ws.Pairwise fun v w => v.2 < w.1

/-- The sign of a whole word: that of a letter for a single letter, if there is one; otherwise that of a word, if there is one. -/
inductive WordSign (x : EmphClass) (w : Nat × Nat) : List (Nat × Resolved) → Prop
  | letter {t} : w.2 = w.1 + 1 → x.emphletter = some t → WordSign x w [(w.1, t)]
  | word {t} : w.2 ≠ w.1 + 1 ∨ x.emphletter = none → x.begemphword = some t → WordSign x w [(w.1, t)]
  | none : w.2 ≠ w.1 + 1 ∨ x.emphletter = none → x.begemphword = none → WordSign x w []

/-- One sign for every word. -/
inductive WordSigns (x : EmphClass) : List (Nat × Nat) → List (Nat × Resolved) → Prop
  | nil : WordSigns x [] []
  | cons {w ws a b} : WordSign x w a → WordSigns x ws b → WordSigns x (w :: ws) (a ++ b)

/-- The words begin and end where words of the whole text do. -/
def WholeWords (x : EmphClass) (text : Text) (first last : Nat × Nat) : Prop :=
  (∀ i, i + 1 = first.1 → SepAt x text i) ∧ (text.length ≤ last.2 ∨ SepAt x text last.2)

/-- The signs of a stretch `[start, stop)` of emphasised text. -/
inductive RunSigns (x : EmphClass) (text : Text) (start stop : Nat) : List (Nat × Resolved) → Prop
  /-- with `begemph`, one sign before the first character that is no separator, and `endemph` after the last one -/
  | brackets {b f l ws} : x.begemph = some b → WordsIn x text start stop ws →
      (f = match ws.head? with | some w => w.1 | none => start) → (l = match ws.getLast? with | some w => w.2 | none => stop) →
      RunSigns x text start stop ((f, b) :: (x.endemph.map fun e => (l, e)).toList)
  /-- without words there are no signs -/
  | nothing : x.begemph = none → WordsIn x text start stop [] → RunSigns x text start stop []
  /-- whole words, too few for a phrase: every word has its sign -/
  | words {w ws out} : x.begemph = none → WordsIn x text start stop (w :: ws) → WholeWords x text w (ws.getLast?.getD w) →
      ((w :: ws).length < x.lenPhrase ∨ x.begemphphrase = none) → WordSigns x (w :: ws) out → RunSigns x text start stop out
  /-- a phrase whose end is shown before its last word, which has its own sign -/
  | phraseBefore {w ws b out} : x.begemph = none → WordsIn x text start stop (w :: ws) → WholeWords x text w (ws.getLast?.getD w) →
      x.lenPhrase ≤ (w :: ws).length → x.begemphphrase = some b → x.endemphphraseBefore = true →
      WordSign x (ws.getLast?.getD w) out → RunSigns x text start stop ((w.1, b) :: out)
  /-- a phrase whose end is shown after its last word -/
  | phraseAfter {w ws b} : x.begemph = none → WordsIn x text start stop (w :: ws) → WholeWords x text w (ws.getLast?.getD w) →
      x.lenPhrase ≤ (w :: ws).length → x.begemphphrase = some b → x.endemphphraseBefore = false →
      RunSigns x text start stop ((w.1, b) :: (x.endemphphrase.map fun e => ((ws.getLast?.getD w).2, e)).toList)
  /-- a single letter within a word -/
  | partLetter {w t} : x.begemph = none → WordsIn x text start stop [w] → ¬ WholeWords x text w w →
      w.2 = w.1 + 1 → x.emphletter = some t → RunSigns x text start stop [(w.1, t)]
  /-- emphasis that begins or ends within a word: the sign of a word, and its end if it ends within a word -/
  | partWord {w ws b out} : x.begemph = none → WordsIn x text start stop (w :: ws) → ¬ WholeWords x text w (ws.getLast?.getD w) →
      (ws ≠ [] ∨ w.2 ≠ w.1 + 1 ∨ x.emphletter = none) → x.begemphword = some b →
      (stop < text.length → ¬ SepAt x text stop → out = (x.endemphword.map fun e => (stop, e)).toList) →
      (text.length ≤ stop ∨ SepAt x text stop → out = []) → RunSigns x text start stop ((start, b) :: out)
  /-- the same in a class that has only signs for phrases -/
  | partPhrase {w ws b out} : x.begemph = none → WordsIn x text start stop (w :: ws) → ¬ WholeWords x text w (ws.getLast?.getD w) →
      (ws ≠ [] ∨ w.2 ≠ w.1 + 1 ∨ x.emphletter = none) → x.begemphword = none → x.begemphphrase = some b →
      (stop < text.length → out = (x.endemphphrase.map fun e => (stop, e)).toList) →
      (text.length ≤ stop → out = []) → RunSigns x text start stop ((start, b) :: out)
  /-- a class without a sign for this -/
  | partNone {w ws} : x.begemph = none → WordsIn x text start stop (w :: ws) → ¬ WholeWords x text w (ws.getLast?.getD w) →
      (ws ≠ [] ∨ w.2 ≠ w.1 + 1 ∨ x.emphletter = none) → x.begemphword = none → x.begemphphrase = none →
      RunSigns x text start stop []

/-- The place where the emphasis of a stretch opens: its first character that is no separator (its beginning, if there is none). -/
def OpensAt (x : EmphClass) (text : Text) (start stop p : Nat) : Prop :=
  (start ≤ p ∧ p < stop ∧ ¬ SepAt x text p ∧ ∀ i, start ≤ i → i < p → SepAt x text i) ∨
  (p = start ∧ ∀ i, start ≤ i → i < stop → SepAt x text i)

/-- The place where it closes: after its last character that is no separator (its end, if there is none). -/
def ClosesAt (x : EmphClass) (text : Text) (start stop p : Nat) : Prop :=
  (start < p ∧ p ≤ stop ∧ ¬ SepAt x text (p - 1) ∧ ∀ i, p ≤ i → i < stop → SepAt x text i) ∨
  (p = stop ∧ ∀ i, start ≤ i → i < stop → SepAt x text i)

end Louis
