import Verif.Model.Regexp

/-! The matcher of regexp.rs once more, this time counting what it does: the first component of each function is the
function of `Verif.Model.Regexp` (proved in `Verif.Props.Cost`: `addThread_counted`, `stepThreads_counted`,
`runLoop_counted`, `findAnchored_counted`), the second the number of calls of `add_thread`, plus the number of threads
looked at, plus the number of passes through the `while` loop, that the Rust code goes through.  Every one of these is a
bounded amount of work, apart from clearing the bit set once per pass (one word per 64 instructions) and looking a
character up in a hash set. -/

namespace Louis.Regexp

/-- regexp.rs:393-455 `add_thread`, counting itself. -/
def addThreadC (is : List Instr) (cx : Ctx) (sp : Nat) :
    Nat → ThreadList → Nat → Nat × Nat → Except Fault ThreadList × Nat
  | 0, _, _, _ => (.error .outOfFuel, 1)
  | fuel + 1, l, pc, cap =>
    match l.seen.get pc with
    | none => (.error .panic, 1)
    | some true => (.ok l, 1)
    | some false =>
      let l : ThreadList := { l with seen := l.seen.insert pc }
      let go := fun (l : ThreadList) (pc : Nat) (cap : Nat × Nat) =>
        let r := addThreadC is cx sp fuel l pc cap
        (r.1, r.2 + 1)
      match is[pc]? with
      | none => (.error .panic, 1)
      | some (.jump t) => go l t cap
      | some (.split a b) =>
        let r := addThreadC is cx sp fuel l a cap
        match r.1 with
        | .error e => (.error e, r.2 + 1)
        | .ok l => let r' := addThreadC is cx sp fuel l b cap
                   (r'.1, r.2 + r'.2 + 1)
      | some .captureStart => go l (pc + 1) (sp, 0)
      | some .captureEnd => go l (pc + 1) (cap.1, sp)
      | some (.varEq i v) => if cx.env i = some v then go l (pc + 1) cap else (.ok l, 1)
      | some (.notVarEq i v) => if (cx.env i).any (· != v) then go l (pc + 1) cap else (.ok l, 1)
      | some .assertEnd => if sp = cx.inputLen then go l (pc + 1) cap else (.ok l, 1)
      | some .assertMoreInput => if sp ≠ cx.inputLen then go l (pc + 1) cap else (.ok l, 1)
      | some .assertStart => if cx.atStart = true ∧ sp = 0 then go l (pc + 1) cap else (.ok l, 1)
      | some .assertNotStart => if ¬ (cx.atStart = true ∧ sp = 0) then go l (pc + 1) cap else (.ok l, 1)
      | some .fail => (.ok l, 1)
      | some (.char _) | some (.notChar _) | some (.ciChar _) | some (.cls _) | some (.notCls _)
      | some .any | some (.mtch _) => (.ok { l with threads := l.threads ++ [⟨pc, cap⟩] }, 1)

/-- regexp.rs:501-599, the loop over the threads: one for each thread looked at, and what `add_thread` costs. -/
def stepThreadsC (is : List Instr) (classes : List (List Char)) (cx : Ctx) (sp length : Nat)
    (next : Option Char) : List Thread → ThreadList → Option Matched →
    Except Fault (ThreadList × Option Matched) × Nat
  | [], nl, m => (.ok (nl, m), 0)
  | t :: ts, nl, m =>
    match is[t.pc]? with
    | none => (.error .panic, 1)
    | some (.mtch idx) => (.ok (nl, some (t.cap, length, idx)), 1)
    | some i =>
      match consumes classes cx.lower i next with
      | .error e => (.error e, 1)
      | .ok none => let r := stepThreadsC is classes cx sp length next ts nl m
                    (r.1, r.2 + 1)
      | .ok (some c) =>
        let a := addThreadC is cx (sp + c.utf8Size) (is.length + 1) nl (t.pc + 1) t.cap
        match a.1 with
        | .error e => (.error e, a.2 + 1)
        | .ok nl => let r := stepThreadsC is classes cx sp length next ts nl m
                    (r.1, a.2 + r.2 + 1)

/-- regexp.rs:498-604, the `while` loop: one for each pass, and what the pass costs. -/
def runLoopC (is : List Instr) (classes : List (List Char)) (cx : Ctx) :
    (rest : List Char) → (sp length : Nat) → (current other : ThreadList) → Option Matched →
    Except Fault (Option Matched) × Nat
  | rest, sp, length, current, other, m =>
    if current.threads.isEmpty then (.ok m, 1) else
    let s := stepThreadsC is classes cx sp length rest.head? current.threads other.startStep m
    match s.1 with
    | .error e => (.error e, s.2 + 1)
    | .ok (next, m) =>
      match rest with
      | [] => (.ok m, s.2 + 1)
      | c :: rest => let r := runLoopC is classes cx rest (sp + c.utf8Size) (length + 1) next current m
                     (r.1, s.2 + r.2 + 1)

/-- regexp.rs:473-605, `find_anchored` up to the end of the loop (what follows cuts the capture out of the text). -/
def matchCost {τ : Type} (p : Compiled τ) (lower : Char → List Char) (input : List Char)
    (env : Nat → Option Nat) (atStart : Bool) : Except Fault (Option Matched) × Nat :=
  let cx : Ctx := ⟨lower, env, atStart, utf8Len input⟩
  let a := addThreadC p.instrs cx 0 (p.instrs.length + 1) (ThreadList.new p.instrs.length).startStep 0 (0, 0)
  match a.1 with
  | .error e => (.error e, a.2)
  | .ok current =>
    let r := runLoopC p.instrs p.classes cx input 0 0 current (ThreadList.new p.instrs.length) none
    (r.1, a.2 + r.2)

end Louis.Regexp
