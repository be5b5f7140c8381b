import Verif.Lemmas.Trie
import Verif.Model.Compile
import Verif.Model.Pipeline

/-!
# Classes are sets

The classes of a table are hash sets; the model keeps them as lists.  Nothing that a translator does depends on the order of these
lists or on repetitions in them: `sortDedup` gives the same list for all lists with the same members, and it can be applied to every
list of characters that a translator holds.
-/

namespace Louis

open Regexp (Fault Compiled Regexp findAnchored)

/-! ## A canonical list -/

theorem insertSorted_sorted {c : Char} : ∀ {l : List Char}, l.Pairwise (fun a b => a.toNat < b.toNat) →
    (insertSorted c l).Pairwise (fun a b => a.toNat < b.toNat)
  | [], _ => by simp [insertSorted]
  | d :: ds, h => by
    have hd := List.pairwise_cons.1 h
    unfold insertSorted
    split
    · next hlt =>
      refine List.pairwise_cons.2 ⟨fun x hx => ?_, h⟩
      rcases List.mem_cons.1 hx with rfl | hx
      · exact hlt
      · exact Nat.lt_trans hlt (hd.1 x hx)
    · split
      · exact h
      · next hlt hne =>
        refine List.pairwise_cons.2 ⟨fun x hx => ?_, insertSorted_sorted hd.2⟩
        rcases mem_insertSorted.1 hx with rfl | hx
        · have : x.toNat ≠ d.toNat := fun e => hne (Char.toNat_inj.1 e)
          omega
        · exact hd.1 x hx

theorem sortDedup_sorted : ∀ (l : List Char), (sortDedup l).Pairwise (fun a b => a.toNat < b.toNat)
  | [] => .nil
  | c :: cs => insertSorted_sorted (sortDedup_sorted cs)

theorem sorted_ext : ∀ {a b : List Char}, a.Pairwise (fun a b => a.toNat < b.toNat) → b.Pairwise (fun a b => a.toNat < b.toNat) →
    (∀ x, x ∈ a ↔ x ∈ b) → a = b
  | [], [], _, _, _ => rfl
  | [], y :: ys, _, _, h => absurd ((h y).2 (List.mem_cons_self ..)) (by simp)
  | x :: xs, [], _, _, h => absurd ((h x).1 (List.mem_cons_self ..)) (by simp)
  | x :: xs, y :: ys, ha, hb, h => by
    have ha' := List.pairwise_cons.1 ha
    have hb' := List.pairwise_cons.1 hb
    have e : x = y := by
      rcases List.mem_cons.1 ((h x).1 (List.mem_cons_self ..)) with e | hx
      · exact e
      · rcases List.mem_cons.1 ((h y).2 (List.mem_cons_self ..)) with e | hy
        · exact e.symm
        · have h1 := hb'.1 x hx
          have h2 := ha'.1 y hy
          omega
    subst e
    congr 1
    refine sorted_ext ha'.2 hb'.2 fun z => ?_
    have hz := h z
    simp only [List.mem_cons] at hz
    constructor
    · intro hm
      rcases hz.1 (.inr hm) with rfl | h'
      · have := ha'.1 z hm; omega
      · exact h'
    · intro hm
      rcases hz.2 (.inr hm) with rfl | h'
      · have := hb'.1 z hm; omega
      · exact h'

/-- Lists with the same members have the same canonical list. -/
theorem sortDedup_congr {a b : List Char} (h : ∀ x, x ∈ a ↔ x ∈ b) : sortDedup a = sortDedup b :=
  sorted_ext (sortDedup_sorted a) (sortDedup_sorted b) fun x => by rw [mem_sortDedup, mem_sortDedup, h]

theorem contains_sortDedup (l : List Char) (c : Char) : (sortDedup l).contains c = l.contains c := by
  rw [Bool.eq_iff_iff]
  simp [mem_sortDedup]

/-! ## Patterns -/

/-- The pattern with canonical classes. -/
def _root_.Louis.Regexp.Regexp.canon : Regexp → Regexp
  | .cls cs => .cls (sortDedup cs)
  | .notCls cs => .notCls (sortDedup cs)
  | .concat l r => .concat l.canon r.canon
  | .either l r => .either l.canon r.canon
  | .optional r => .optional r.canon
  | .zeroOrMore r => .zeroOrMore r.canon
  | .oneOrMore r => .oneOrMore r.canon
  | .repeatExactly n r => .repeatExactly n r.canon
  | .repeatAtLeast n r => .repeatAtLeast n r.canon
  | .repeatAtLeastAtMost a b r => .repeatAtLeastAtMost a b r.canon
  | .capture r => .capture r.canon
  | .group r => .group r.canon
  | r => r

namespace Regexp

def Out.canon (o : Out) : Out := ⟨o.instrs, o.classes.map sortDedup⟩

theorem repeatN_canon {f g : Out → Out} (h : ∀ o, g o.canon = (f o).canon) : ∀ (n : Nat) (o : Out),
    repeatN g n o.canon = (repeatN f n o).canon
  | 0, _ => rfl
  | n + 1, o => by simp only [repeatN, h, repeatN_canon h n]

theorem emit_canon : ∀ (r : Regexp) (o : Out), emit r.canon o.canon = (emit r o).canon := by
  have push : ∀ (o : Out) i, o.canon.push i = (o.push i).canon := fun _ _ => rfl
  have patch : ∀ (o : Out) p i, o.canon.patch p i = (o.patch p i).canon := fun _ _ _ => rfl
  have instrs : ∀ (o : Out), o.canon.instrs = o.instrs := fun _ => rfl
  intro r
  induction r with
  | cls cs => intro o; simp [Regexp.canon, emit, Out.canon]
  | notCls cs => intro o; simp [Regexp.canon, emit, Out.canon]
  | string s => intro o; rfl
  | notString s => intro o; rfl
  | ciString s => intro o; rfl
  | repeatExactly n r ih => intro o; exact repeatN_canon ih n o
  | repeatAtLeast n r ih => intro o; simp only [Regexp.canon, emit, push, patch, instrs, ih, repeatN_canon ih]
  | repeatAtLeastAtMost a b r ih => intro o; simp only [Regexp.canon, emit, push, patch, instrs, repeatN_canon ih]
  | _ => intro o; simp only [Regexp.canon, emit, push, patch, instrs, *]

/-- A compiled pattern with canonical classes. -/
def Compiled.canon {τ : Type} (p : Compiled τ) : Compiled τ := ⟨p.instrs, p.classes.map sortDedup, p.translations⟩

theorem compile_canon {τ : Type} (r : Regexp) (payload : τ) : compile r.canon payload = (compile r payload).canon := by
  have := emit_canon r ⟨[], []⟩
  unfold compile Compiled.canon
  have e : (Out.canon ⟨[], []⟩) = ⟨[], []⟩ := rfl
  rw [e] at this
  rw [this]
  rfl

theorem consumes_canon (classes : List (List Char)) (lower : Char → List Char) (i : Instr) (next : Option Char) :
    consumes (classes.map sortDedup) lower i next = consumes classes lower i next := by
  unfold consumes
  cases i <;> try rfl
  case cls k =>
    cases next with
    | none => rfl
    | some c => simp only [List.getElem?_map]; cases classes[k]? with | none => rfl | some cs => simp only [Option.map_some, Option.filter, contains_sortDedup]
  case notCls k =>
    cases next with
    | none => rfl
    | some c => simp only [List.getElem?_map]; cases classes[k]? with | none => rfl | some cs => simp only [Option.map_some, Option.filter, contains_sortDedup]

theorem stepThreads_canon (is : List Instr) (classes : List (List Char)) (cx : Ctx) (sp length : Nat) (next : Option Char) :
    ∀ (ts : List Thread) (nl : ThreadList) (m : Option Matched),
    stepThreads is (classes.map sortDedup) cx sp length next ts nl m = stepThreads is classes cx sp length next ts nl m := by
  intro ts
  induction ts with
  | nil => intros; rfl
  | cons t ts ih => intro nl m; simp only [stepThreads, consumes_canon, ih]

theorem runLoop_canon (is : List Instr) (classes : List (List Char)) (cx : Ctx) :
    ∀ (rest : List Char) (sp length : Nat) (current other : ThreadList) (m : Option Matched),
    runLoop is (classes.map sortDedup) cx rest sp length current other m = runLoop is classes cx rest sp length current other m := by
  intro rest
  induction rest with
  | nil => intros; rw [runLoop, runLoop, stepThreads_canon]
  | cons c rest ih => intros; rw [runLoop, runLoop, stepThreads_canon]; simp only [ih]

theorem findAnchored_canon {τ : Type} (p : Compiled τ) (lower : Char → List Char) (input : List Char)
    (env : Nat → Option Nat) (atStart : Bool) : findAnchored p.canon lower input env atStart = findAnchored p lower input env atStart := by
  unfold findAnchored Compiled.canon
  simp only [runLoop_canon]

theorem negate_canon : ∀ (r : Regexp), negate r.canon = (negate r).map Regexp.canon := by
  intro r
  induction r with
  | concat l r ihl ihr | either l r ihl ihr =>
    simp only [Regexp.canon, negate, ihl, ihr]
    cases negate l <;> cases negate r <;> rfl
  | optional r ih | zeroOrMore r ih | oneOrMore r ih | group r ih | repeatExactly n r ih | repeatAtLeast n r ih | repeatAtLeastAtMost n m r ih =>
    simp only [Regexp.canon, negate, ih]
    cases negate r <;> rfl
  | _ => rfl

end Regexp

/-! ## Classes with the same members -/

/-- The same characters in the same classes. -/
def CharClasses.Alike (a b : CharClasses) : Prop := ∀ k c, (k, c) ∈ a ↔ (k, c) ∈ b

theorem CharClasses.Alike.get {a b : CharClasses} (h : a.Alike b) (k : CharClass) :
    (a.get k = none ↔ b.get k = none) ∧ ∀ c, c ∈ (a.get k).getD [] ↔ c ∈ (b.get k).getD [] := by
  have hm : ∀ (x : CharClasses) c, c ∈ (x.get k).getD [] ↔ (k, c) ∈ x := by
    intro x c
    unfold CharClasses.get
    split
    · next e =>
      simp only [Option.getD_none, List.not_mem_nil, false_iff]
      intro hc
      have : (k, c) ∈ x.filter (·.1 == k) := List.mem_filter.2 ⟨hc, by simp⟩
      rw [e] at this; cases this
    · simp only [Option.getD_some, List.mem_map, List.mem_filter, beq_iff_eq]
      constructor
      · rintro ⟨⟨k', c'⟩, ⟨h1, h2⟩, h3⟩
        simp only at h2 h3; subst h2 h3; exact h1
      · intro hc; exact ⟨(k, c), ⟨hc, rfl⟩, rfl⟩
  have hn : ∀ x : CharClasses, x.get k = none ↔ ∀ c, (k, c) ∉ x := by
    intro x
    unfold CharClasses.get
    split
    · next e =>
      simp only [true_iff]
      intro c hc
      have : (k, c) ∈ x.filter (·.1 == k) := List.mem_filter.2 ⟨hc, by simp⟩
      rw [e] at this; cases this
    · next l e =>
      simp only [reduceCtorEq, false_iff]
      intro hc
      cases hl : x.filter (·.1 == k) with
      | nil => exact e hl
      | cons y ys =>
        have hy : y ∈ x.filter (·.1 == k) := by rw [hl]; exact List.mem_cons_self ..
        obtain ⟨h1, h2⟩ := List.mem_filter.1 hy
        obtain ⟨k', c'⟩ := y
        simp only [beq_iff_eq] at h2
        subst h2
        exact hc c' h1
  exact ⟨by rw [hn, hn]; simp only [h k], fun c => by rw [hm, hm, h]⟩

theorem CharClasses.Alike.canon {a b : CharClasses} (h : a.Alike b) (k : CharClass) :
    sortDedup ((a.get k).getD []) = sortDedup ((b.get k).getD []) := sortDedup_congr (h.get k).2

theorem CharClasses.Alike.flatMap {α : Type} {a b : CharClasses} (h : a.Alike b) (f : α → Option CharClass) (ks : List α) :
    ∀ c, (c ∈ ks.flatMap fun x => match f x with | some k => (a.get k).getD [] | none => []) ↔
      (c ∈ ks.flatMap fun x => match f x with | some k => (b.get k).getD [] | none => []) := by
  intro c
  simp only [List.mem_flatMap]
  constructor <;> rintro ⟨x, hx, hc⟩ <;> refine ⟨x, hx, ?_⟩ <;> revert hc <;> cases f x <;> simp [(h.get _).2]

theorem CharClasses.Alike.resolve {a b : CharClasses} (h : a.Alike b) (ks : List CharClass) :
    RClasses.resolve a ks = RClasses.resolve b ks := by
  unfold RClasses.resolve
  congr 1
  exact sortDedup_congr (h.flatMap some ks)

/-! ## Dictionaries -/

theorem CharClasses.Alike.path {a b : CharClasses} (h : a.Alike b) (r : TrieRule) (d : Direction) : r.path a d = r.path b d := by
  unfold TrieRule.path startPath stopPath
  simp only [h.resolve]

theorem CharClasses.Alike.insert {a b : CharClasses} (h : a.Alike b) (d : Direction) (r : TrieRule) (t : Trie) :
    t.insert a d r = t.insert b d r := by
  unfold Trie.insert
  rw [h.path]

theorem apply_dots {ctx ctx' : PrimCtx} (h1 : ctx.classes = ctx'.classes) (h2 : ctx.swaps = ctx'.swaps)
    (h3 : ctx.trieClasses.Alike ctx'.trieClasses) (t : PrimaryTable) (op : PrimOp) : t.apply ctx op = t.apply ctx' op := by
  cases op with
  | rule nocross r => cases nocross <;> simp only [PrimaryTable.apply, h3.insert]
  | _ => simp only [PrimaryTable.apply, h3.insert, h1, h2]

theorem applyAll_dots {ctx ctx' : PrimCtx} (h1 : ctx.classes = ctx'.classes) (h2 : ctx.swaps = ctx'.swaps)
    (h3 : ctx.trieClasses.Alike ctx'.trieClasses) : ∀ (ops : List PrimOp) (t : PrimaryTable),
    PrimaryTable.applyAll ctx ops t = PrimaryTable.applyAll ctx' ops t
  | [], _ => rfl
  | op :: ops, t => by
    unfold PrimaryTable.applyAll
    rw [apply_dots h1 h2 h3]
    split
    · rfl
    · exact applyAll_dots h1 h2 h3 ops _

/-! ## Reading capitals and numbers back -/

def CapsDots.canon (d : CapsDots) : CapsDots := { d with letters := sortDedup d.letters }

theorem CapsDots.word_canon (d : CapsDots) : ∀ (text : Text) (pos : Nat), d.canon.word pos text = d.word pos text
  | [], _ => rfl
  | c :: cs, pos => by
    simp only [CapsDots.word, CapsDots.word_canon d cs]
    simp only [CapsDots.canon, contains_sortDedup]

theorem CapsDots.loop_canon (d : CapsDots) : ∀ (fuel pos : Nat) (text : Text), d.canon.loop fuel pos text = d.loop fuel pos text
  | fuel, pos, [] => by cases fuel <;> rfl
  | 0, _, _ :: _ => rfl
  | fuel + 1, pos, c :: cs => by
    simp only [CapsDots.loop, CapsDots.loop_canon d fuel, CapsDots.word_canon]
    rfl

theorem CapsDots.compute_canon (d : CapsDots) (input : Text) : d.canon.compute input = d.compute input := by
  unfold CapsDots.compute
  rw [CapsDots.loop_canon]

def NumDots.canon (d : NumDots) : NumDots := { d with digits := sortDedup d.digits, letters := sortDedup d.letters }

theorem NumDots.loop_canon (d : NumDots) : ∀ (fuel pos : Nat) (prev : Option Char) (b : Bool) (text : Text),
    d.canon.loop fuel pos prev b text = d.loop fuel pos prev b text
  | fuel, pos, prev, b, [] => by cases fuel <;> rfl
  | 0, _, _, _, _ :: _ => rfl
  | fuel + 1, pos, prev, b, c :: cs => by
    simp only [NumDots.loop, NumDots.loop_canon d fuel]
    simp only [NumDots.canon, contains_sortDedup]
    rfl

theorem NumDots.compute_canon (d : NumDots) (input : Text) : d.canon.compute input = d.compute input := by
  unfold NumDots.compute
  rw [NumDots.loop_canon]

def Constrainers.canon (c : Constrainers) : Constrainers :=
  { c with caps := c.caps.map CapsDots.canon, backNumeric := c.backNumeric.map NumDots.canon }

theorem Constrainers.precompute_canon (c : Constrainers) (input : Text) (spans : List Span) :
    c.canon.precompute input spans = c.precompute input spans := by
  obtain ⟨c1, c2, c3, c4, c5⟩ := c
  unfold Constrainers.precompute Constrainers.canon
  cases c2 <;> cases c3 <;> simp only [Option.map_none, Option.map_some, CapsDots.compute_canon, NumDots.compute_canon]

/-! ## Stages -/

def Primary.canon (p : Primary) : Primary := { p with constrainers := p.constrainers.canon }

theorem Primary.traces_canon (p : Primary) (cs : Case) (input : Text) (spans : List Span) (ts : List Resolved) :
    p.canon.Traces cs input spans ts ↔ p.Traces cs input spans ts := by
  unfold Primary.Traces Primary.canon
  simp only [Constrainers.precompute_canon]

theorem patternsFind_canon (lower : Char → List Char) (input : Text) (env : Env) (atStart : Bool) : ∀ (ps : List (Compiled Translation)),
    patternsFind (ps.map Compiled.canon) lower input env atStart = patternsFind ps lower input env atStart
  | [] => rfl
  | p :: ps => by
    simp only [List.map_cons, patternsFind, Regexp.findAnchored_canon, patternsFind_canon lower input env atStart ps]

def MultipassTable.canon (t : MultipassTable) : MultipassTable := ⟨t.patterns.map Compiled.canon, t.stage⟩

theorem mpStep_canon (t : MultipassTable) (lower : Char → List Char) (input : Text) (s : MpState) :
    mpStep t.canon lower input s = mpStep t lower input s := by
  unfold mpStep MultipassTable.canon
  simp only [patternsFind_canon]

theorem mpLoop_canon (t : MultipassTable) (lower : Char → List Char) (input : Text) : ∀ (fuel : Nat) (s : MpState),
    mpLoop t.canon lower input fuel s = mpLoop t lower input fuel s
  | 0, _ => rfl
  | fuel + 1, s => by
    simp only [mpLoop, mpStep_canon, mpLoop_canon t lower input fuel]

theorem MultipassTable.traces_canon (t : MultipassTable) (lower : Char → List Char) (input : Text) (ts : List Resolved) :
    t.canon.Traces lower input ts ↔ t.Traces lower input ts := by
  unfold MultipassTable.Traces
  simp only [mpLoop_canon]

/-- A stage with canonical classes. -/
def Transform.canon : Transform → Transform
  | .pre t => .pre t.canon
  | .primary p => .primary p.canon
  | .post t => .post t.canon

theorem Transform.traces_canon (x : Transform) (cs : Case) (spans : List Span) (input : Text) (ts : List Resolved) :
    x.canon.Traces cs spans input ts ↔ x.Traces cs spans input ts := by
  cases x
  · exact MultipassTable.traces_canon ..
  · exact Primary.traces_canon ..
  · exact MultipassTable.traces_canon ..

/-- A translator with canonical classes does the same. -/
theorem traces_canon (cs : Case) (spans : List Span) : ∀ (steps : List Transform) (input : Text) (tss : List (List Resolved)),
    Pipeline.Traces cs spans input (steps.map Transform.canon) tss ↔ Pipeline.Traces cs spans input steps tss
  | [], _, _ => Iff.rfl
  | x :: steps, input, tss => by
    simp only [List.map_cons, Pipeline.Traces, Transform.traces_canon, traces_canon cs spans steps]

theorem translates_canon (cs : Case) (spans : List Span) : ∀ (steps : List Transform) (input output : Text),
    Pipeline.Translates cs spans input (steps.map Transform.canon) output ↔ Pipeline.Translates cs spans input steps output
  | [], _, _ => Iff.rfl
  | x :: steps, input, output => by
    simp only [List.map_cons, Pipeline.Translates, Transform.Translates, Transform.traces_canon, translates_canon cs spans steps]

/-! ## The patterns of a pass -/

theorem quantified_canon {a b : List Char} (h : ∀ x, x ∈ a ↔ x ∈ b) (q : Option Quantifier) :
    (quantified a q).canon = (quantified b q).canon := by
  have e := sortDedup_congr h
  rcases q with _ | ⟨_⟩ | ⟨_⟩ | _ <;> simp only [quantified, Regexp.canon, e]

theorem fromClass_canon {a b : CharClasses} (h : a.Alike b) (name : Text) (q : Option Quantifier) :
    (fromClass a name q).canon = (fromClass b name q).canon := quantified_canon (h.get _).2 q

theorem fromAttributes_canon {a b : CharClasses} (h : a.Alike b) (attrs : List Attr) (q : Option Quantifier) :
    (fromAttributes a attrs q).canon = (fromAttributes b attrs q).canon := by
  refine quantified_canon (fun c => ?_) q
  simp only [List.mem_flatMap]
  constructor <;> rintro ⟨x, hx, hc⟩ <;> refine ⟨x, hx, ?_⟩ <;> revert hc <;> cases x <;> simp [(h.get _).2]

mutual
theorem fromInstr_canon {a b : CharClasses} (h : a.Alike b) : ∀ (t : TestInstr),
    (fromInstr a t).map Regexp.canon = (fromInstr b t).map Regexp.canon
  | .lookback _ => by simp only [fromInstr]
  | .varTest _ op _ => by cases op <;> simp only [fromInstr]
  | .string _ => by simp only [fromInstr]
  | .dots _ => by simp only [fromInstr]
  | .attributes as q => by simp only [fromInstr, Option.map_some, fromAttributes_canon h]
  | .cls n q => by simp only [fromInstr, Option.map_some, fromClass_canon h]
  | .negate t => by
    have ih := fromInstr_canon h t
    simp only [fromInstr]
    cases ha : fromInstr a t <;> cases hb : fromInstr b t <;> rw [ha, hb] at ih <;> simp at ih
    simp only [Option.bind_some]
    rw [← Regexp.negate_canon, ← Regexp.negate_canon, ih]
  | .replace ts => by
    have ih := fromInstrs_canon h ts
    simp only [fromInstr]
    cases ha : fromInstrs a ts <;> cases hb : fromInstrs b ts <;> rw [ha, hb] at ih <;> simp at ih
    simp only [Option.map_some, Regexp.canon, ih]
  | .atBeginning => by simp only [fromInstr]
  | .atEnd => by simp only [fromInstr]
theorem fromInstrs_canon {a b : CharClasses} (h : a.Alike b) : ∀ (ts : List TestInstr),
    (fromInstrs a ts).map Regexp.canon = (fromInstrs b ts).map Regexp.canon
  | [] => by simp only [fromInstrs]
  | t :: ts => by
    have ih := fromInstr_canon h t
    simp only [fromInstrs]
    cases ha : fromInstr a t <;> cases hb : fromInstr b t <;> rw [ha, hb] at ih <;> simp at ih
    · rfl
    · exact fromRest_canon h ts _ _ ih
theorem fromRest_canon {a b : CharClasses} (h : a.Alike b) : ∀ (ts : List TestInstr) (acc acc' : Regexp), acc.canon = acc'.canon →
    (fromRest a acc ts).map Regexp.canon = (fromRest b acc' ts).map Regexp.canon
  | [], acc, acc', hc => by simp only [fromRest, Option.map_some, hc]
  | t :: ts, acc, acc', hc => by
    have ih := fromInstr_canon h t
    simp only [fromRest]
    cases ha : fromInstr a t <;> cases hb : fromInstr b t <;> rw [ha, hb] at ih <;> simp at ih
    · rfl
    · exact fromRest_canon h ts _ _ (by simp only [Regexp.canon, hc, ih])
end

theorem compilePattern_canon {a b : CharClasses} (h : a.Alike b) (swaps : SwapClasses) (stage : Stage) (prec : Prec) (origin : Origin)
    (test : List TestInstr) (action : List ActionInstr) :
    (compilePattern a swaps stage prec origin test action).map Compiled.canon =
      (compilePattern b swaps stage prec origin test action).map Compiled.canon := by
  unfold compilePattern
  cases targetsOf swaps action with
  | error e => rfl
  | ok targets =>
    have ih := fromInstrs_canon h (addImplicitReplace test)
    simp only
    cases ha : fromInstrs a (addImplicitReplace test) <;> cases hb : fromInstrs b (addImplicitReplace test) <;> rw [ha, hb] at ih <;> simp at ih
    simp only [Except.map]
    rw [← Regexp.compile_canon, ← Regexp.compile_canon, ih]

theorem map_ok_iff {α β : Type} {f : α → β} {x : Except CompileErr α} {b : β} : x.map f = .ok b ↔ ∃ a, x = .ok a ∧ f a = b := by
  cases x <;> simp [Except.map]

theorem compilePass_canon {a b : CharClasses} (h : a.Alike b) (swaps : SwapClasses) (d : Direction) (stage : Stage) :
    ∀ (rules : List PassRule), (compilePass a swaps d stage rules).map (List.map Compiled.canon) =
      (compilePass b swaps d stage rules).map (List.map Compiled.canon)
  | [] => rfl
  | r :: rs => by
    have ih := compilePass_canon h swaps d stage rs
    have ihp := compilePattern_canon h swaps stage .default r.origin r.test r.action
    unfold compilePass
    split
    · exact ih
    · cases ha : compilePattern a swaps stage .default r.origin r.test r.action <;>
        cases hb : compilePattern b swaps stage .default r.origin r.test r.action <;> rw [ha, hb] at ihp <;> simp [Except.map] at ihp
      · simp only [Except.map, ihp]
      · cases ha' : compilePass a swaps d stage rs <;> cases hb' : compilePass b swaps d stage rs <;> rw [ha', hb'] at ih <;>
          simp [Except.map] at ih
        · simp only [Except.map, ih]
        · simp only [Except.map, List.map_cons, ih, ihp]

theorem compileStage_canon {ctx ctx' : TableCtx} (h : ctx.dots.Alike ctx'.dots) (hs : ctx.swaps = ctx'.swaps)
    (d : Direction) {stage : Stage} (hstage : stage = .post1 ∨ stage = .post2 ∨ stage = .post3) (rules : List PassRule) :
    (compileStage ctx d stage .post rules).map (List.map Transform.canon) =
      (compileStage ctx' d stage .post rules).map (List.map Transform.canon) := by
  have e : ∀ x : TableCtx, x.stageClasses stage = x.dots := by
    rcases hstage with rfl | rfl | rfl <;> intro x <;> rfl
  unfold compileStage
  split
  · rfl
  · rw [e, e, hs]
    have ih := compilePass_canon h ctx'.swaps d stage rules
    cases ha : compilePass ctx.dots ctx'.swaps d stage rules <;> cases hb : compilePass ctx'.dots ctx'.swaps d stage rules <;>
      rw [ha, hb] at ih <;> simp [Except.map] at ih
    · simp only [Except.map, ih]
    · simp [Except.map, Transform.canon, MultipassTable.canon, ih]

end Louis
