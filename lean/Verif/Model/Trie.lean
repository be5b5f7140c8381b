import Verif.Model.Types

/-!
# Model of `src/translator/trie.rs`

A node's `HashMap<ResolvedTransition, TrieNode>` is an association list.  Insertion keeps the entries in insertion order;
the iteration order of a hash map is unspecified (and randomised per process), so every theorem about lookups is stated
for *all* tries that hold the same entries (`Trie.SameEntries`), i.e. for every order of the entries of every node.
-/

namespace Louis

/-- trie.rs:15-21 `struct ResolvedClasses`. -/
structure RClasses where
  chars : List Char
  includesSpace : Bool
  deriving Repr, DecidableEq

/-- Insertion into a sorted list without duplicates. -/
def insertSorted (c : Char) : List Char → List Char
  | [] => [c]
  | d :: ds => if c.toNat < d.toNat then c :: d :: ds else if c = d then d :: ds else d :: insertSorted c ds

/-- trie.rs:31-32 `sort_unstable` followed by `dedup`. -/
def sortDedup : List Char → List Char
  | [] => []
  | c :: cs => insertSorted c (sortDedup cs)

/-- trie.rs:24-36 `ResolvedClasses::resolve`. -/
def RClasses.resolve (ctx : CharClasses) (ks : List CharClass) : RClasses :=
  ⟨sortDedup (ks.flatMap fun k => (ctx.get k).getD []), ks.contains .space⟩

/-- trie.rs:38-43 `matches`; the binary search in the sorted vector is modelled by membership. -/
def RClasses.matches (r : RClasses) : Option Char → Bool
  | some c => r.chars.contains c
  | none => r.includesSpace

/-- trie.rs:62-67 `enum ResolvedTransition`.  `Any` is left out: no code constructs it. -/
inductive RTrans where
  | char (c : Char)
  | start (r : RClasses)
  | stop (r : RClasses)
  deriving Repr, DecidableEq

/-- trie.rs:79-82 `struct TrieNode`. -/
inductive Trie where
  | node (tr : Option Resolved) (kids : List (RTrans × Trie))

/-- `TrieNode::default()`. -/
def Trie.empty : Trie := .node none []

/-- `transitions.entry(k).or_default()` followed by an update of the child. -/
def updKid (k : RTrans) (g : Trie → Trie) : List (RTrans × Trie) → List (RTrans × Trie)
  | [] => [(k, g Trie.empty)]
  | (k', t) :: rest => if k' = k then (k', g t) :: rest else (k', t) :: updKid k g rest

/-- Walk down (creating nodes as needed) and update the translation of the last node: the shape of trie.rs:186-260. -/
def Trie.modify : List RTrans → (Option Resolved → Option Resolved) → Trie → Trie
  | [], f, .node tr kids => .node (f tr) kids
  | k :: path, f, .node tr kids => .node tr (updKid k (Trie.modify path f) kids)

/-- trie.rs:71-76 `enum ClassConstraint`. -/
inductive ClassConstraint where
  | start (k : CharClass)
  | stop (k : CharClass)
  deriving Repr, DecidableEq

/-- The arguments of one `Trie::insert` call (trie.rs:155-166).  `before` is always a `Transition::Start` and `after`
always a `Transition::End` (every call in table/primary.rs), so only their classes are kept. -/
structure TrieRule where
  chars : Text
  dots : Text
  before : Option (List CharClass)
  after : Option (List CharClass)
  constraints : List ClassConstraint
  prec : Prec
  stage : Stage
  origin : Origin
  deriving Repr, DecidableEq

/-- trie.rs:167-171: `from` and `to` are swapped for backward translation. -/
def TrieRule.from (r : TrieRule) : Direction → Text
  | .forward => r.chars
  | .backward => r.dots

/-- trie.rs:167-171. -/
def TrieRule.to (r : TrieRule) : Direction → Text
  | .forward => r.dots
  | .backward => r.chars

/-- trie.rs:189-199. -/
def startPath (ctx : CharClasses) (cs : List ClassConstraint) : List RTrans :=
  cs.filterMap fun
    | .start k => some (.start (RClasses.resolve ctx [k]))
    | .stop _ => none

/-- trie.rs:218-228. -/
def stopPath (ctx : CharClasses) (cs : List ClassConstraint) : List RTrans :=
  cs.filterMap fun
    | .start _ => none
    | .stop k => some (.stop (RClasses.resolve ctx [k]))

/-- trie.rs:189-228: the transitions from the root to the rule's node. -/
def TrieRule.path (r : TrieRule) (ctx : CharClasses) (d : Direction) : List RTrans :=
  startPath ctx r.constraints ++ (r.before.map fun ks => RTrans.start (RClasses.resolve ctx ks)).toList ++
    (r.from d).map .char ++ (r.after.map fun ks => RTrans.stop (RClasses.resolve ctx ks)).toList ++
    stopPath ctx r.constraints

/-- trie.rs:187-228 `length`: the number of characters and of boundary conditions. -/
def TrieRule.weight (r : TrieRule) (d : Direction) : Nat :=
  (r.from d).length + r.constraints.length + r.before.toList.length + r.after.toList.length

/-- trie.rs:230-260, with the default feature `backwards_compatibility`. -/
def TrieRule.store (r : TrieRule) (d : Direction) : Option Resolved → Option Resolved
  | some t =>
    if r.prec.rank > t.prec.rank then
      some (Resolved.new (r.from d) (r.to d) (r.from d).length r.stage (some r.origin))
    else some t
  | none => some (Resolved.new (r.from d) (r.to d) (r.weight d) r.stage (some r.origin))

/-- trie.rs:155-261 `Trie::insert`; `none` is the failing assertion on an empty `from`. -/
def Trie.insert (ctx : CharClasses) (d : Direction) (r : TrieRule) (t : Trie) : Option Trie :=
  if r.from d = [] then none else some (Trie.modify (r.path ctx d) (r.store d) t)

/-- A sequence of insertions. -/
def Trie.insertAll (ctx : CharClasses) (d : Direction) : List TrieRule → Trie → Option Trie
  | [], t => some t
  | r :: rs, t => (Trie.insert ctx d r t).bind (Trie.insertAll ctx d rs)

mutual
/-- trie.rs:263-327 `find_translations_from_node`. -/
def Trie.find (lower : Char → List Char) : Trie → Text → Option Char → List Resolved
  | .node tr kids, input, prev => tr.toList ++ findChar lower kids input ++ findChecks lower kids input prev
/-- trie.rs:85-95, 278-296: follow the transition of the (single-character) lowercase of the next character. -/
def findChar (lower : Char → List Char) : List (RTrans × Trie) → Text → List Resolved
  | [], _ => []
  | _ :: _, [] => []
  | (k, t) :: kids, c :: rest =>
    match lower c with
    | [l] => if k = .char l then Trie.find lower t rest (some c) else findChar lower kids (c :: rest)
    | _ => []
/-- trie.rs:301-325: the non-consuming checks, in iteration order. -/
def findChecks (lower : Char → List Char) : List (RTrans × Trie) → Text → Option Char → List Resolved
  | [], _, _ => []
  | (.start r, t) :: kids, input, prev =>
    (if r.matches prev then Trie.find lower t input prev else []) ++ findChecks lower kids input prev
  | (.stop r, t) :: kids, input, prev =>
    (if r.matches input.head? then Trie.find lower t input prev else []) ++ findChecks lower kids input prev
  | (.char _, _) :: kids, input, prev => findChecks lower kids input prev
end

/-! ## The entries of a trie -/

/-- `transitions.get(k)`. -/
def kid (k : RTrans) : List (RTrans × Trie) → Option Trie
  | [] => none
  | (k', t) :: rest => if k' = k then some t else kid k rest

/-- The translation stored at the end of a path. -/
def Trie.at : List RTrans → Trie → Option Resolved
  | [], .node tr _ => tr
  | k :: path, .node _ kids => (kid k kids).bind (Trie.at path)

mutual
/-- No transition occurs twice in a node: what being a hash map means for the association list. -/
def Trie.Map : Trie → Prop
  | .node _ kids => (kids.map (·.1)).Nodup ∧ KidsMap kids
def KidsMap : List (RTrans × Trie) → Prop
  | [] => True
  | (_, t) :: kids => Trie.Map t ∧ KidsMap kids
end

/-- Two tries with the same entries, whatever the order in which the hash maps list them. -/
def Trie.SameEntries (t t' : Trie) : Prop := t'.Map ∧ ∀ path, t'.at path = t.at path

end Louis
