/-!
# Model of `src/translator/regexp.rs`

The regular expression AST, its compiler to byte code and the Pike virtual machine.

Conventions: `u8`/`usize` are `Nat` (no arithmetic on them can overflow here: the only arithmetic is on
instruction and byte positions, bounded by the memory occupied); `HashSet<char>` is a list of its members;
`char::to_lowercase` is the parameter `lower` of the matching context; positions in the text (`sp`, captures)
are **byte** positions as in the code.  A Rust panic is the value `Fault.panic`.
-/

namespace Louis.Regexp

/-- regexp.rs:32-80 `enum Regexp`. -/
inductive Regexp where
  | literal (c : Char)
  | concat (l r : Regexp)
  | either (l r : Regexp)
  | optional (r : Regexp)
  | zeroOrMore (r : Regexp)
  | oneOrMore (r : Regexp)
  | any
  | cls (cs : List Char)
  | notCls (cs : List Char)
  | repeatExactly (n : Nat) (r : Regexp)
  | repeatAtLeast (n : Nat) (r : Regexp)
  | repeatAtLeastAtMost (min max : Nat) (r : Regexp)
  | capture (r : Regexp)
  | string (s : List Char)
  | notString (s : List Char)
  | ciString (s : List Char)
  | varEq (slot value : Nat)
  | notVarEq (slot value : Nat)
  | group (r : Regexp)
  | empty
  | endAnchor
  | notEndAnchor
  | startAnchor
  | notStartAnchor
  | never
  deriving Repr, DecidableEq

/-- regexp.rs:272-311 `enum Instruction`. -/
inductive Instr where
  | char (c : Char)
  | notChar (c : Char)
  | ciChar (c : Char)
  | cls (idx : Nat)
  | notCls (idx : Nat)
  | any
  | mtch (idx : Nat)
  | jump (target : Nat)
  | split (a b : Nat)
  | captureStart
  | captureEnd
  | varEq (slot value : Nat)
  | notVarEq (slot value : Nat)
  | assertEnd
  | assertMoreInput
  | assertStart
  | assertNotStart
  | fail
  deriving Repr, DecidableEq

/-- The two vectors `emit` appends to (regexp.rs:151-155). -/
structure Out where
  instrs : List Instr
  classes : List (List Char)
  deriving Repr, DecidableEq

/-- `instructions.push(i)`. -/
def Out.push (o : Out) (i : Instr) : Out := { o with instrs := o.instrs ++ [i] }

/-- `instructions[p] = i` (always in range here: `p` is the length of the vector before a push). -/
def Out.patch (o : Out) (p : Nat) (i : Instr) : Out := { o with instrs := o.instrs.set p i }

/-- `for _ in 0..n { f }`. -/
def repeatN (f : Out → Out) : Nat → Out → Out
  | 0, o => o
  | n + 1, o => repeatN f n (f o)

/-- regexp.rs:151-262 `Regexp::emit`. The mutable vectors are threaded through. -/
def emit : Regexp → Out → Out
  | .literal c, o => o.push (.char c)
  | .concat l r, o => emit r (emit l o)
  | .either l r, o =>
    let p1 := o.instrs.length
    let o := o.push (.split (p1 + 1) 0)
    let o := emit l o
    let p2 := o.instrs.length
    let o := o.push (.jump 0)
    let o := o.patch p1 (.split (p1 + 1) (p2 + 1))
    let o := emit r o
    o.patch p2 (.jump o.instrs.length)
  | .optional r, o =>
    let pos := o.instrs.length
    let o := o.push (.split (pos + 1) 0)
    let o := emit r o
    o.patch pos (.split (pos + 1) o.instrs.length)
  | .zeroOrMore r, o =>
    let pos := o.instrs.length
    let o := o.push (.split (pos + 1) 0)
    let o := emit r o
    let o := o.push (.jump pos)
    o.patch pos (.split (pos + 1) o.instrs.length)
  | .oneOrMore r, o =>
    let pos := o.instrs.length
    let o := emit r o
    o.push (.split pos (o.instrs.length + 1))
  | .any, o => o.push .any
  | .cls cs, o => { instrs := o.instrs ++ [.cls o.classes.length], classes := o.classes ++ [cs] }
  | .notCls cs, o => { instrs := o.instrs ++ [.notCls o.classes.length], classes := o.classes ++ [cs] }
  | .repeatExactly n r, o => repeatN (emit r) n o
  | .repeatAtLeast n r, o =>
    let o := repeatN (emit r) n o
    let pos := o.instrs.length
    let o := o.push (.split (pos + 1) 0)
    let o := emit r o
    let o := o.push (.jump pos)
    o.patch pos (.split (pos + 1) o.instrs.length)
  | .repeatAtLeastAtMost min max r, o =>
    let o := repeatN (emit r) min o
    let pos := o.instrs.length
    let o := o.push (.split (pos + 1) 0)
    let o := repeatN (emit r) (max - min) o
    let o := o.push (.jump pos)
    o.patch pos (.split (pos + 1) o.instrs.length)
  | .capture r, o =>
    let o := o.push .captureStart
    let o := emit r o
    o.push .captureEnd
  | .string s, o => { o with instrs := o.instrs ++ s.map .char }
  | .notString s, o => { o with instrs := o.instrs ++ s.map .notChar }
  | .ciString s, o => { o with instrs := o.instrs ++ s.map .ciChar }
  | .varEq i v, o => o.push (.varEq i v)
  | .notVarEq i v, o => o.push (.notVarEq i v)
  | .group r, o => emit r o
  | .empty, o => o
  | .endAnchor, o => o.push .assertEnd
  | .notEndAnchor, o => o.push .assertMoreInput
  | .startAnchor, o => o.push .assertStart
  | .notStartAnchor, o => o.push .assertNotStart
  | .never, o => o.push .fail

/-- regexp.rs:315-324 `struct CompiledRegexp` (the payload type is a parameter). -/
structure Compiled (τ : Type) where
  instrs : List Instr
  classes : List (List Char)
  translations : List τ

/-- regexp.rs:136-147 `compile_with_payload`. -/
def compile {τ : Type} (r : Regexp) (payload : τ) : Compiled τ :=
  let o := emit r ⟨[], []⟩
  { instrs := o.instrs ++ [.mtch 0], classes := o.classes, translations := [payload] }

/-- Why a Rust execution would not return a value. -/
inductive Fault where
  | panic
  | outOfFuel
  deriving Repr, DecidableEq

/-! ## Bitset (regexp.rs:335-360) -/

/-- regexp.rs:342 `struct Bitset(SmallVec<[u64; 1]>)`. -/
abbrev Bitset := List (BitVec 64)

/-- regexp.rs:345-347 `Bitset::new`. -/
def Bitset.new (len : Nat) : Bitset := List.replicate (max ((len + 63) / 64) 1) 0#64

/-- regexp.rs:349-351 `Bitset::get`; `none` is the out-of-bounds panic. -/
def Bitset.get (b : Bitset) (i : Nat) : Option Bool :=
  match b[i / 64]? with
  | none => none
  | some w => some ((w &&& (1#64 <<< (i % 64))) != 0#64)

/-- regexp.rs:353-355 `Bitset::insert` (only called after a successful `get` of the same index). -/
def Bitset.insert (b : Bitset) (i : Nat) : Bitset :=
  match b[i / 64]? with
  | none => b
  | some w => b.set (i / 64) (w ||| (1#64 <<< (i % 64)))

/-- regexp.rs:357-359 `Bitset::clear`. -/
def Bitset.clear (b : Bitset) : Bitset := b.map fun _ => 0#64

/-! ## The virtual machine -/

/-- regexp.rs:330-333 `struct Thread`. -/
structure Thread where
  pc : Nat
  cap : Nat × Nat
  deriving Repr, DecidableEq

/-- regexp.rs:365-373 `struct ThreadList`. -/
structure ThreadList where
  threads : List Thread
  seen : Bitset
  deriving Repr, DecidableEq

/-- regexp.rs:376-381 `ThreadList::new`. -/
def ThreadList.new (len : Nat) : ThreadList := ⟨[], Bitset.new len⟩

/-- regexp.rs:383-386 `ThreadList::start_step`. -/
def ThreadList.startStep (l : ThreadList) : ThreadList := ⟨[], l.seen.clear⟩

/-- What a match is relative to: `lower` is `char::to_lowercase`, `env` the variable environment
(`Environment::get`), `atStart` and `inputLen` the arguments of the same name. -/
structure Ctx where
  lower : Char → List Char
  env : Nat → Option Nat
  atStart : Bool
  inputLen : Nat

/-- regexp.rs:26-28 `chars_match_case_insensitive`. -/
def ciMatch (lower : Char → List Char) (actual expected : Char) : Bool :=
  (lower actual).length == 1 && (lower actual).head? == some expected

/-- regexp.rs:393-455 `CompiledRegexp::add_thread`.  The Rust recursion has no fuel; `fuel` bounds the recursion
depth and theorem `C05` shows that one more than the number of instructions is always enough. -/
def addThread (is : List Instr) (cx : Ctx) (sp : Nat) :
    Nat → ThreadList → Nat → Nat × Nat → Except Fault ThreadList
  | 0, _, _, _ => .error .outOfFuel
  | fuel + 1, l, pc, cap =>
    match l.seen.get pc with
    | none => .error .panic
    | some true => .ok l
    | some false =>
      let l : ThreadList := { l with seen := l.seen.insert pc }
      match is[pc]? with
      | none => .error .panic
      | some (.jump t) => addThread is cx sp fuel l t cap
      | some (.split a b) =>
        match addThread is cx sp fuel l a cap with
        | .error e => .error e
        | .ok l => addThread is cx sp fuel l b cap
      | some .captureStart => addThread is cx sp fuel l (pc + 1) (sp, 0)
      | some .captureEnd => addThread is cx sp fuel l (pc + 1) (cap.1, sp)
      | some (.varEq i v) =>
        if cx.env i = some v then addThread is cx sp fuel l (pc + 1) cap else .ok l
      | some (.notVarEq i v) =>
        if (cx.env i).any (· != v) then addThread is cx sp fuel l (pc + 1) cap else .ok l
      | some .assertEnd => if sp = cx.inputLen then addThread is cx sp fuel l (pc + 1) cap else .ok l
      | some .assertMoreInput => if sp ≠ cx.inputLen then addThread is cx sp fuel l (pc + 1) cap else .ok l
      | some .assertStart =>
        if cx.atStart = true ∧ sp = 0 then addThread is cx sp fuel l (pc + 1) cap else .ok l
      | some .assertNotStart =>
        if ¬ (cx.atStart = true ∧ sp = 0) then addThread is cx sp fuel l (pc + 1) cap else .ok l
      | some .fail => .ok l
      | some (.char _) | some (.notChar _) | some (.ciChar _) | some (.cls _) | some (.notCls _)
      | some .any | some (.mtch _) => .ok { l with threads := l.threads ++ [⟨pc, cap⟩] }

/-- Does the character-consuming instruction accept the next character, if there is one?  The tests of
regexp.rs:509-594.  The result is the character consumed.  An out-of-range class index is a panic, as is any other
instruction (`unreachable!`, regexp.rs:595). -/
def consumes (classes : List (List Char)) (lower : Char → List Char) (i : Instr) (next : Option Char) :
    Except Fault (Option Char) :=
  match i with
  | .char e => .ok (next.filter (· == e))
  | .notChar e => .ok (next.filter (· != e))
  | .ciChar e => .ok (next.filter (ciMatch lower · e))
  | .cls k =>
    match next with
    | none => .ok none
    | some c => match classes[k]? with | none => .error .panic | some cs => .ok ((some c).filter cs.contains)
  | .notCls k =>
    match next with
    | none => .ok none
    | some c => match classes[k]? with
      | none => .error .panic | some cs => .ok ((some c).filter (!cs.contains ·))
  | .any => .ok next
  | _ => .error .panic

/-- The best match so far: capture span, number of characters consumed, payload index (regexp.rs:490-493). -/
abbrev Matched := (Nat × Nat) × Nat × Nat

/-- regexp.rs:501-599, the `for thread in &current.threads` loop with its `break` on `Match`. -/
def stepThreads (is : List Instr) (classes : List (List Char)) (cx : Ctx) (sp length : Nat)
    (next : Option Char) : List Thread → ThreadList → Option Matched →
    Except Fault (ThreadList × Option Matched)
  | [], nl, m => .ok (nl, m)
  | t :: ts, nl, m =>
    match is[t.pc]? with
    | none => .error .panic
    | some (.mtch idx) => .ok (nl, some (t.cap, length, idx))
    | some i =>
      match consumes classes cx.lower i next with
      | .error e => .error e
      | .ok none => stepThreads is classes cx sp length next ts nl m
      | .ok (some c) =>
        match addThread is cx (sp + c.utf8Size) (is.length + 1) nl (t.pc + 1) t.cap with
        | .error e => .error e
        | .ok nl => stepThreads is classes cx sp length next ts nl m

/-- regexp.rs:498-604, the `while` loop.  `rest` is `input[sp..]`. The thread list called `next` is cleared at the
start of each step; `other` is the storage that `next` refers to. -/
def runLoop (is : List Instr) (classes : List (List Char)) (cx : Ctx) :
    (rest : List Char) → (sp length : Nat) → (current other : ThreadList) → Option Matched →
    Except Fault (Option Matched)
  | rest, sp, length, current, other, m =>
    if current.threads.isEmpty then .ok m else
    match stepThreads is classes cx sp length rest.head? current.threads other.startStep m with
    | .error e => .error e
    | .ok (next, m) =>
      match rest with
      | [] => .ok m
      | c :: rest => runLoop is classes cx rest (sp + c.utf8Size) (length + 1) next current m

/-- Length of a text in bytes, `str::len`. -/
def utf8Len : List Char → Nat
  | [] => 0
  | c :: cs => c.utf8Size + utf8Len cs

/-- `&input[n..]`; `none` is the panic for a position that is out of range or not on a char boundary. -/
def dropBytes : List Char → Nat → Option (List Char)
  | cs, 0 => some cs
  | [], _ + 1 => none
  | c :: cs, n + 1 => if c.utf8Size ≤ n + 1 then dropBytes cs (n + 1 - c.utf8Size) else none

/-- `&input[..n]`. -/
def takeBytes : List Char → Nat → Option (List Char)
  | _, 0 => some []
  | [], _ + 1 => none
  | c :: cs, n + 1 =>
    if c.utf8Size ≤ n + 1 then (takeBytes cs (n + 1 - c.utf8Size)).map (c :: ·) else none

/-- `&input[a..b]`; panics if `a > b` or either is not on a char boundary. -/
def sliceBytes (input : List Char) (a b : Nat) : Option (List Char) :=
  if a ≤ b then (dropBytes input a).bind (takeBytes · (b - a)) else none

/-- The arguments `find_anchored` passes to `Translation::resolve` (regexp.rs:606-613). -/
structure Found (τ : Type) where
  capture : List Char
  length : Nat
  offset : Nat
  payload : τ
  deriving Repr, DecidableEq

/-- regexp.rs:473-614 `find_anchored`. -/
def findAnchored {τ : Type} (p : Compiled τ) (lower : Char → List Char) (input : List Char)
    (env : Nat → Option Nat) (atStart : Bool) : Except Fault (Option (Found τ)) :=
  let cx : Ctx := ⟨lower, env, atStart, utf8Len input⟩
  match addThread p.instrs cx 0 (p.instrs.length + 1) (ThreadList.new p.instrs.length).startStep 0 (0, 0) with
  | .error e => .error e
  | .ok current =>
    match runLoop p.instrs p.classes cx input 0 0 current (ThreadList.new p.instrs.length) none with
    | .error e => .error e
    | .ok none => .ok none
    | .ok (some ((start, stop), length, idx)) =>
      match sliceBytes input start stop, takeBytes input start, p.translations[idx]? with
      | some capture, some before, some t => .ok (some ⟨capture, length, before.length, t⟩)
      | _, _, _ => .error .panic

/-- regexp.rs:467-469 `find`. -/
def find {τ : Type} (p : Compiled τ) (lower : Char → List Char) (input : List Char)
    (env : Nat → Option Nat) : Except Fault (Option (Found τ)) := findAnchored p lower input env false

/-- regexp.rs:87-133 `Regexp::negate`; `none` is `todo!()`/`unreachable!()`. -/
def negate : Regexp → Option Regexp
  | .literal _ => none
  | .concat l r => do return .concat (← negate l) (← negate r)
  | .either l r => do return .either (← negate l) (← negate r)
  | .optional r => do return .optional (← negate r)
  | .zeroOrMore r => do return .zeroOrMore (← negate r)
  | .oneOrMore r => do return .oneOrMore (← negate r)
  | .any => some .never
  | .cls cs => some (.notCls cs)
  | .notCls _ => none
  | .repeatExactly n r => do return .repeatExactly n (← negate r)
  | .repeatAtLeast n r => do return .repeatAtLeast n (← negate r)
  | .repeatAtLeastAtMost n m r => do return .repeatAtLeastAtMost n m (← negate r)
  | .capture _ => none
  | .string s => some (.notString s)
  | .notString _ => none
  | .ciString _ => none
  | .varEq i v => some (.notVarEq i v)
  | .notVarEq _ _ => none
  | .group r => do return .group (← negate r)
  | .empty => some .never
  | .never => some .empty
  | .endAnchor => some .notEndAnchor
  | .notEndAnchor => some .endAnchor
  | .startAnchor => some .notStartAnchor
  | .notStartAnchor => some .startAnchor

end Louis.Regexp
