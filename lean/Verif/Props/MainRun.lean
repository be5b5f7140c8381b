import Verif.Spec.MainRun
import Verif.Props.PassStage
import Verif.Props.Matches
import Verif.Props.Longest

/-!
# C73: what the main stage does, exactly
-/

namespace Louis

open Regexp (Fault Compiled findAnchored utf8Len utf8Len_append)

/-! ## Dictionaries -/

theorem store_kept {d : Direction} {rs : List TrieRule} : ∀ {t : Resolved}, t.prec = .default →
    rs.foldl (fun o r => r.store d o) (some t) = some (match (rs.filter (·.prec != .default)).getLast? with
      | some x => Resolved.new (x.from d) (x.to d) (x.from d).length x.stage (some x.origin)
      | none => t) := by
  induction rs with
  | nil => intro t _; rfl
  | cons r rs ih =>
    intro t ht
    rw [List.foldl_cons]
    by_cases hp : r.prec = .default
    · have : r.store d (some t) = some t := by simp [TrieRule.store, hp, ht, Prec.rank]
      rw [this, ih ht, List.filter_cons_of_neg (by simp [hp])]
    · have : r.store d (some t) = some (Resolved.new (r.from d) (r.to d) (r.from d).length r.stage (some r.origin)) := by
        have : Prec.rank .default < r.prec.rank := by cases h : r.prec <;> simp_all [Prec.rank]
        simp [TrieRule.store, ht, this]
      rw [this, ih rfl, List.filter_cons_of_pos (by simp [hp])]
      cases hl : (rs.filter (·.prec != .default)).getLast? with
      | none =>
        have : rs.filter (·.prec != .default) = [] := List.getLast?_eq_none_iff.1 hl
        rw [this]
        rfl
      | some x =>
        rw [List.getLast?_cons, hl]
        rfl

theorem keptOf_eq (d : Direction) (rs : List TrieRule) : rs.foldl (fun o r => r.store d o) none = keptOf d rs := by
  cases rs with
  | nil => rfl
  | cons r rs =>
    rw [List.foldl_cons]
    exact store_kept rfl

/-- A dictionary lists what its entries offer, and nothing else. -/
theorem dictionary_lists (T : MainTable) (lower : Char → List Char) {entries : List TrieRule} {t : Trie}
    (h : Dictionary T.neighbours T.dir entries t) (rest : Text) (prev : Option Char) (o : Resolved) :
    o ∈ t.find lower rest prev ↔ T.Offers lower entries rest prev o := by
  have hmap : t.Map := by obtain ⟨t, -, h2⟩ := h; exact h2.1
  rw [mem_find t rest prev hmap]
  constructor
  · rintro ⟨path, h1, h2⟩
    rw [h.at, keptOf_eq] at h1
    cases hl : entries.filter fun r => r.path T.neighbours T.dir = path with
    | nil => rw [hl] at h1; cases h1
    | cons e es =>
      have he : e ∈ entries.filter fun r => r.path T.neighbours T.dir = path := by rw [hl]; simp
      obtain ⟨he, hp⟩ := List.mem_filter.1 he
      have hp := of_decide_eq_true hp
      refine ⟨e, he, path_iff.1 (hp ▸ h2), ?_⟩
      rw [hp]
      exact h1
  · rintro ⟨e, -, h1, h2⟩
    exact ⟨_, by rw [h.at, keptOf_eq]; exact h2, path_iff.2 h1⟩

/-! ## The table -/

def matchLinesOf (ops : List PrimOp) : List MatchLine :=
  ops.filterMap fun
    | .matchRule pre chars post to origin => some ⟨pre, chars, post, to, origin⟩
    | _ => none

def contextLinesOf (ops : List PrimOp) : List PassRule :=
  ops.filterMap fun
    | .context test action origin => some ⟨test, action, origin⟩
    | _ => none

def digitsOf (ops : List PrimOp) : List (Char × Resolved) :=
  ops.filterMap fun
    | .digitOverride cell character origin => some (cell, Resolved.new [cell] [character] 1 .main (some origin))
    | _ => none

/-- The main stage that the operations build: the first line of a character counts, and the last one for undefined characters
and for digits. -/
def mainTable (ctx : PrimCtx) (d : Direction) (ops : List PrimOp) : MainTable where
  dir := d
  neighbours := ctx.trieClasses
  classes := ctx.classes
  swaps := ctx.swaps
  entries := trieRules d ops
  unbroken := nocrossRules ops
  computer := comp6Rules ops
  matchLines := matchLinesOf ops
  contextLines := contextLinesOf ops
  chars := if d = .forward then ops.filterMap fun
    | .char c dots _ origin => some (c, Resolved.new [c] dots 1 .main (some origin))
    | _ => none else []
  undefined := (ops.filterMap fun | .undefined dots => some dots | _ => none).getLast?
  defs := ctx.defs
  digits := (digitsOf ops).reverse

theorem applyAll_lists {ctx : PrimCtx} : ∀ {ops : List PrimOp} {t t' : PrimaryTable},
    PrimaryTable.applyAll ctx ops t = .ok t' →
    ∃ ms xs, t'.matchPats = t.matchPats ++ ms ∧ t'.contextPats = t.contextPats ++ xs ∧
      (matchLinesOf ops).map (fun l => compileMatch ctx.classes l.pre l.chars l.post l.to l.origin) = ms.map some ∧
      compilePass ctx.classes ctx.swaps .forward .main (contextLinesOf ops) = .ok xs ∧
      t'.digitOverrides = (digitsOf ops).reverse ++ t.digitOverrides := by
  intro ops
  induction ops with
  | nil =>
    intro t t' h
    cases h
    exact ⟨[], [], by simp, by simp, rfl, rfl, by simp [digitsOf]⟩
  | cons op ops ih =>
    intro t t' h
    simp only [PrimaryTable.applyAll] at h
    split at h
    · cases h
    · next t1 h1 =>
      obtain ⟨ms, xs, e1, e2, e3, e4, e5⟩ := ih h
      have same : t1.matchPats = t.matchPats → t1.contextPats = t.contextPats → t1.digitOverrides = t.digitOverrides →
          matchLinesOf (op :: ops) = matchLinesOf ops → contextLinesOf (op :: ops) = contextLinesOf ops →
          digitsOf (op :: ops) = digitsOf ops → ∃ ms xs, t'.matchPats = t.matchPats ++ ms ∧ t'.contextPats = t.contextPats ++ xs ∧
          (matchLinesOf (op :: ops)).map (fun l => compileMatch ctx.classes l.pre l.chars l.post l.to l.origin) = ms.map some ∧
          compilePass ctx.classes ctx.swaps .forward .main (contextLinesOf (op :: ops)) = .ok xs ∧
          t'.digitOverrides = (digitsOf (op :: ops)).reverse ++ t.digitOverrides := by
        intro a1 a2 a3 a4 a5 a6
        rw [a4, a5, a6, ← a1, ← a2, ← a3]
        exact ⟨ms, xs, e1, e2, e3, e4, e5⟩
      cases op with
      | char c dots prec origin =>
        simp only [PrimaryTable.apply] at h1
        split at h1
        · cases h1; exact same rfl rfl rfl rfl rfl rfl
        · split at h1
          · cases h1
          · cases h1; exact same rfl rfl rfl rfl rfl rfl
      | rule nc r =>
        cases nc <;>
        · simp only [PrimaryTable.apply] at h1
          split at h1
          · cases h1
          · cases h1; exact same rfl rfl rfl rfl rfl rfl
      | comp6 r =>
        simp only [PrimaryTable.apply] at h1
        split at h1
        · cases h1
        · cases h1; exact same rfl rfl rfl rfl rfl rfl
      | undefined dots => simp only [PrimaryTable.apply] at h1; cases h1; exact same rfl rfl rfl rfl rfl rfl
      | digitOverride cell character origin =>
        simp only [PrimaryTable.apply] at h1
        cases h1
        refine ⟨ms, xs, e1, e2, e3, e4, ?_⟩
        rw [e5]
        simp [digitsOf]
      | matchRule pre chars post to origin =>
        simp only [PrimaryTable.apply] at h1
        split at h1
        · cases h1
        · next p hp =>
          cases h1
          have hp := orPanic_ok hp
          refine ⟨p :: ms, xs, by simp [e1], e2, ?_, e4, e5⟩
          simp only [matchLinesOf, List.filterMap_cons, List.map_cons, hp]
          rw [← e3]
          rfl
      | context test action origin =>
        simp only [PrimaryTable.apply] at h1
        split at h1
        · cases h1
        · next p hp =>
          cases h1
          refine ⟨ms, p :: xs, e1, by simp [e2], e3, ?_, e5⟩
          have : contextLinesOf (.context test action origin :: ops) = ⟨test, action, origin⟩ :: contextLinesOf ops := rfl
          rw [this]
          simp only [compilePass]
          rw [if_neg (by simp)]
          simp only [hp, e4]

/-- No `match` line repeats by `*` or `+` something that may read no character, and the `context` lines are such as can be
written in a table. -/
structure MainTable.Plain (T : MainTable) : Prop where
  loops : ∀ l ∈ T.matchLines, PlainLoopsAll 0 l.pre ∧ PlainLoopsAll 0 l.post
  written : ∀ l ∈ T.contextLines, l.Written

theorem matchFind_offers {T : MainTable} (lower : Char → List Char) (text : Text) (env : Env) (atStart : Bool) :
    ∀ {lines : List MatchLine} {ps : List (Compiled Translation)},
    lines.map (fun l => compileMatch T.classes l.pre l.chars l.post l.to l.origin) = ps.map some →
    (∀ l ∈ lines, PlainLoopsAll 0 l.pre ∧ PlainLoopsAll 0 l.post) →
    patternsFind ps lower text env atStart = .ok (lines.filterMap (T.matchOffer lower atStart text)) := by
  intro lines
  induction lines with
  | nil => intro ps h _; cases ps with
    | nil => rfl
    | cons _ _ => cases h
  | cons l lines ih =>
    intro ps h hp
    cases ps with
    | nil => cases h
    | cons p ps =>
      simp only [List.map_cons, List.cons.injEq] at h
      obtain ⟨hl1, hl2⟩ := hp l (by simp)
      have h53 := C53_match_exact T.classes l.pre l.chars l.post l.to l.origin p h.1 hl1 hl2 lower text env atStart
      have ih' := ih h.2 fun x hx => hp x (by simp [hx])
      rw [List.filterMap_cons]
      simp only [patternsFind, ih']
      cases hs : matchStretch T.classes lower atStart l.pre l.chars l.post text with
      | none =>
        rw [hs] at h53
        simp only [h53, MainTable.matchOffer, hs, Option.map_none]
      | some st =>
        rw [hs] at h53
        obtain ⟨f, h1, h2⟩ := h53
        simp only [h1, MainTable.matchOffer, hs, Option.map_some, h2, List.length_append]

/-- What a built stage is made of. -/
structure Faithful (ctx : PrimCtx) (d : Direction) (ops : List PrimOp) (t : PrimaryTable) : Prop where
  ok : PrimOk ctx d ops t
  matching : (matchLinesOf ops).map (fun l => compileMatch ctx.classes l.pre l.chars l.post l.to l.origin) = t.matchPats.map some
  contexts : compilePass ctx.classes ctx.swaps .forward .main (contextLinesOf ops) = .ok t.contextPats
  digits : t.digitOverrides = (digitsOf ops).reverse

theorem Built.faithful {ctx : PrimCtx} {d : Direction} {ops : List PrimOp} {t : PrimaryTable} (h : Built ctx d ops t) :
    Faithful ctx d ops t := by
  have ok := h.ok
  obtain ⟨t₀, h0, hs⟩ := h
  obtain ⟨ms, xs, e1, e2, e3, e4, e5⟩ := applyAll_lists h0
  have ho := hs.others
  have f1 : t.matchPats = t₀.matchPats := by rw [ho]
  have f2 : t.contextPats = t₀.contextPats := by rw [ho]
  have f3 : t.digitOverrides = t₀.digitOverrides := by rw [ho]
  have e1 : t.matchPats = ms := by rw [f1, e1]; rfl
  have e2 : t.contextPats = xs := by rw [f2, e2]; rfl
  have e5 : t.digitOverrides = (digitsOf ops).reverse := by rw [f3, e5]; simp [PrimaryTable.new]
  exact ⟨ok, by rw [e1]; exact e3, by rw [e2]; exact e4, e5⟩

/-- The listing of a built stage. -/
def listing (t : PrimaryTable) (lower : Char → List Char) : Listing :=
  ⟨t.trie.find lower, t.nocross.find lower, t.comp6.find lower⟩

theorem Faithful.lists {ctx : PrimCtx} {d : Direction} {ops : List PrimOp} {t : PrimaryTable} (h : Faithful ctx d ops t)
    (lower : Char → List Char) : (mainTable ctx d ops).Lists lower (listing t lower) :=
  ⟨dictionary_lists (mainTable ctx d ops) lower h.ok.trie, dictionary_lists (mainTable ctx d ops) lower h.ok.nocross,
    dictionary_lists (mainTable ctx d ops) lower h.ok.comp6⟩

theorem usedLines_forward (rules : List PassRule) : usedLines .forward rules = rules := by
  unfold usedLines
  rw [List.filter_eq_self]
  intro r _
  rfl

/-! ## The state of the loop, from the items -/

/-- The part of the trace that has been written when the items have been made. -/
def MainTable.written (T : MainTable) (cs : Case) (flags : Constraints) (signs : Nat → List Resolved) (made : List Made) :
    List Resolved :=
  (List.range made.length).flatMap fun i =>
    (if arrived (itemsOf (made.take i)) then signs (placeOf (made.take i)) else []) ++
      (made[i]?.map (T.shown cs flags (placeOf (made.take i)))).toList

theorem written_append (T : MainTable) (cs : Case) (flags : Constraints) (signs : Nat → List Resolved) (made : List Made) (m : Made) :
    T.written cs flags signs (made ++ [m]) =
      T.written cs flags signs made ++ (if arrived (itemsOf made) then signs (placeOf made) else []) ++
        [T.shown cs flags (placeOf made) m] := by
  unfold MainTable.written
  rw [List.length_append, List.length_singleton, List.range_succ, List.flatMap_append, List.flatMap_singleton,
    List.take_left' rfl, List.append_assoc]
  congr 1
  · have hcong : ∀ {f g : Nat → List Resolved} (n : Nat), (∀ i < n, f i = g i) → (List.range n).flatMap f = (List.range n).flatMap g := by
      intro f g n h
      rw [List.flatMap, List.flatMap, List.map_congr_left fun i hi => h i (List.mem_range.1 hi)]
    refine hcong _ fun i hi => ?_
    rw [List.take_append_of_le_length (by omega), List.getElem?_append_left hi]
  · simp

theorem itemsOf_append (made : List Made) (m : Made) : itemsOf (made ++ [m]) = itemsOf made ++ [m.item] := by
  simp [itemsOf]

theorem placeOf_append (made : List Made) (m : Made) : placeOf (made ++ [m]) = placeOf made + m.item.input.length := by
  simp [placeOf, itemsOf_append, dealtWith_append]

theorem spentOn_append (made : List Made) (m : Made) : spentOn (made ++ [m]) =
    if m.way = .line then if m.item.length = 0 then m.item.subset :: spentOn made else [] else spentOn made := by
  simp [spentOn, List.foldl_append]

theorem itemsOf_take (made : List Made) (i : Nat) : itemsOf (made.take i) = (itemsOf made).take i := by
  simp [itemsOf, List.map_take]

/-- The state of the loop is determined by the items that have been made. -/
structure Mirrors (T : MainTable) (cs : Case) (flags : Constraints) (signs : Nat → List Resolved) (input : Text) (made : List Made)
    (s : PState) : Prop where
  pos : s.pos = placeOf made
  rest : s.rest = input.drop (placeOf made)
  inside : placeOf made ≤ input.length
  prev : s.prev = (dealtWith (itemsOf made)).getLast?
  env : s.env = settings (itemsOf made)
  seen : s.seen = spentOn made
  delayed : s.delayed = heldOf (T.offers cs.lower input) (itemsOf made)
  last : s.lastInd = some s.pos ↔ arrived (itemsOf made) = false
  out : s.out = T.written cs flags signs made

theorem Mirrors.init (T : MainTable) (cs : Case) (flags : Constraints) (signs : Nat → List Resolved) (input : Text) :
    Mirrors T cs flags signs input [] (PState.init input) := by
  constructor <;> first | rfl | simp [PState.init, placeOf, itemsOf, dealtWith, arrived]

section

variable {ctx : PrimCtx} {d : Direction} {ops : List PrimOp} {t : PrimaryTable} {cs : Case} {flags : Constraints}
  {signs : Nat → List Resolved} {input : Text}

theorem atStart_iff {made : List Made} (h : placeOf made ≤ input.length) :
    (utf8Len (input.drop (placeOf made)) == utf8Len input) = (dealtWith (itemsOf made)).isEmpty := by
  have e : (dealtWith (itemsOf made)).isEmpty = (input.take (placeOf made)).isEmpty := by
    rw [Bool.eq_iff_iff, List.isEmpty_iff_length_eq_zero, List.isEmpty_iff_length_eq_zero, List.length_take]
    unfold placeOf at *
    omega
  rw [e]
  have := drop_isEmpty (u := input.take (placeOf made)) (rest := input.drop (placeOf made))
  rw [List.take_append_drop] at this
  exact this

theorem gather_choices (hf : Faithful ctx d ops t) (hp : (mainTable ctx d ops).Plain) {made : List Made} {s : PState}
    (h : Mirrors (mainTable ctx d ops) cs flags signs input made s) :
    gather t cs flags input s = .ok ((mainTable ctx d ops).choices (listing t cs.lower) cs.lower flags input made,
      (heldOf ((mainTable ctx d ops).offers cs.lower input) (itemsOf made) ++
        ((mainTable ctx d ops).offers cs.lower input (itemsOf made)).filter (·.offset != 0)).filter (·.offset != 0)) := by
  have hat : (utf8Len s.rest == utf8Len input) = (dealtWith (itemsOf made)).isEmpty := by
    rw [h.rest]; exact atStart_iff h.inside
  have hm := matchFind_offers (T := mainTable ctx d ops) cs.lower s.rest Env.new (dealtWith (itemsOf made)).isEmpty hf.matching hp.loops
  have hx := find_offers cs.lower s.rest s.env (dealtWith (itemsOf made)).isEmpty hf.contexts hp.written
  rw [usedLines_forward] at hx
  unfold gather
  simp only [hat, hm, hx]
  have htr : ∀ o ∈ t.trie.find cs.lower s.rest s.prev, o.offset = 0 := fun o ho => (dict_cand hf.ok.trie cs.lower [] _ _ ho).2.1
  have t0 : (t.trie.find cs.lower s.rest s.prev).filter (·.offset == 0) = t.trie.find cs.lower s.rest s.prev :=
    List.filter_eq_self.2 fun o ho => by simp [htr o ho]
  have t1 : (t.trie.find cs.lower s.rest s.prev).filter (·.offset != 0) = [] :=
    List.filter_eq_nil_iff.2 fun o ho => by simp [htr o ho]
  have hoffers : ∀ q : Resolved → Bool, ((mainTable ctx d ops).offers cs.lower input (itemsOf made)).filter q =
      ((matchLinesOf ops).filterMap ((mainTable ctx d ops).matchOffer cs.lower (dealtWith (itemsOf made)).isEmpty s.rest)).filter q ++
      ((contextLinesOf ops).filterMap (PassTable.offer ⟨ctx.classes, ctx.swaps, .main, contextLinesOf ops⟩ s.env
        (dealtWith (itemsOf made)).isEmpty s.rest)).filter q := by
    intro q
    rw [MainTable.offers, List.filter_append, h.env, h.rest]
    rfl
  have h2 : ∀ l : List Resolved, (l.filter (·.offset != 0)).filter (·.offset == 0) = [] := by
    intro l
    rw [List.filter_filter, List.filter_eq_nil_iff]
    intro o _
    simp
  rw [hoffers, t0, t1, List.append_nil, h.delayed]
  rw [List.append_assoc (heldOf _ _)]
  refine congrArg Except.ok (Prod.ext ?_ rfl)
  simp only
  rw [List.filter_append (l₁ := heldOf _ _), List.filter_append (p := fun x : Resolved => x.offset == 0), h2, h2, List.append_nil,
    List.append_nil, held_here]
  unfold selectCandidates MainTable.choices
  simp only
  have e6 : t.comp6.find cs.lower s.rest s.prev =
      (listing t cs.lower).computer (input.drop (placeOf made)) (dealtWith (itemsOf made)).getLast? := by
    rw [h.rest, h.prev]; rfl
  rw [e6, h.pos]
  split
  · rfl
  · have hd : ∀ l, preferDigit t flags s l = (mainTable ctx d ops).digitsFirst flags (placeOf made) (input.drop (placeOf made)) l := by
      intro l
      unfold preferDigit MainTable.digitsFirst
      rw [h.pos, hf.ok.dir, h.rest, hf.digits]
      have : (mainTable ctx d ops).dir = d := rfl
      rw [this]
      by_cases hb : d = .backward ∧ flags.preferDigit (placeOf made) = true
      · rw [if_pos (by simp [hb]), if_pos hb]
        cases input.drop (placeOf made) with
        | nil => rfl
        | cons c rest =>
          simp only [List.head?_cons, Option.bind_some]
          unfold assoc
          have : (mainTable ctx d ops).digits = (digitsOf ops).reverse := rfl
          rw [this]
          cases List.find? (fun x : Char × Resolved => x.1 == c) (digitsOf ops).reverse <;> rfl
      · rw [if_neg (by simpa using hb), if_neg hb]
    have hpu : ∀ o, punctOk flags (placeOf made) o = allowedHere flags (placeOf made) o := by
      intro o
      unfold punctOk allowedHere
      cases ho : o.origin with
      | none => rfl
      | some x => obtain ⟨k, id⟩ := x; cases k <;> rfl
    have hpu : punctOk flags (placeOf made) = allowedHere flags (placeOf made) := funext hpu
    rw [hd, hpu, hoffers, h.prev, h.rest]
    have hsame : ∀ l : List Resolved, (if flags.dontContract (placeOf made) = true then l.filter (·.length ≤ 1) else l) =
        l.filter fun o => !flags.dontContract (placeOf made) || decide (o.length ≤ 1) := by
      intro l
      split
      · next hc => simp [hc]
      · next hc => simp only [hc, Bool.not_false, Bool.true_or]; exact (List.filter_eq_self.2 fun _ _ => rfl).symm
    rw [hsame]
    simp only [List.append_assoc]
    rfl

theorem spelled_eq (hf : Faithful ctx d ops t) (c : Char) : plainTranslation t c = .ok ((mainTable ctx d ops).spelled c) := by
  unfold plainTranslation MainTable.spelled
  have e1 : assoc c t.charTrans = ((mainTable ctx d ops).chars.find? (·.1 == c)).map (·.2) := by
    unfold assoc
    rw [hf.ok.charTrans]
    rfl
  rw [e1]
  cases (mainTable ctx d ops).chars.find? (·.1 == c) with
  | some x => rfl
  | none =>
    simp only [Option.map_none]
    have e2 : t.undefined = (mainTable ctx d ops).undefined := hf.ok.undefined
    rw [e2]
    cases (mainTable ctx d ops).undefined with
    | some x => rfl
    | none =>
      simp only [handleUndefined, escapeCells_ok _ _ (escape_fallback c), hf.ok.defs, Option.getD_none]
      rfl

theorem shown_eq (hf : Faithful ctx d ops t) (cs : Case) (flags : Constraints) (place : Nat) {w : Way} (hw : w ≠ .spelled) (r : Resolved) :
    capitalise t cs flags place r = (mainTable ctx d ops).shown cs flags place ⟨w, r⟩ := by
  unfold capitalise MainTable.shown
  have : (mainTable ctx d ops).dir = d := rfl
  rw [hf.ok.dir, this]
  cases d with
  | forward => simp
  | backward =>
    simp only [hw, false_or, reduceCtorEq, if_false, decide_true, Bool.true_and]
    split
    · rfl
    · split
      · cases r.output <;> simp
      · rfl

theorem unbroken_eq {made : List Made} {s : PState} (h : Mirrors (mainTable ctx d ops) cs flags signs input made s) :
    nocrossCandidate t cs flags s = (mainTable ctx d ops).bestUnbroken (listing t cs.lower) flags input made := by
  unfold nocrossCandidate MainTable.bestUnbroken
  rw [lastHeaviest_eq, h.rest, h.prev, h.pos]
  congr 1
  refine List.filter_congr fun o _ => ?_
  rw [List.range'_eq_map_range, List.any_map]
  rfl

theorem mirrors_append {T : MainTable} {made : List Made} {s s' : PState} (h : Mirrors T cs flags signs input made s) {m : Made}
    (hl : m.item.length = m.item.input.length) (hin : m.item.length ≤ s.rest.length)
    (h1 : s'.pos = s.pos + m.item.length) (h2 : s'.rest = s.rest.drop m.item.length)
    (h3 : s'.prev = if m.item.length = 0 then s.prev else m.item.input.getLast?)
    (h4 : s'.env = settings (itemsOf made ++ [m.item]))
    (h5 : s'.seen = spentOn (made ++ [m]))
    (h6 : s'.delayed = updateOffsets ((heldOf (T.offers cs.lower input) (itemsOf made) ++
        (T.offers cs.lower input (itemsOf made)).filter (·.offset != 0)).filter (·.offset != 0)) m.item.length)
    (h7 : s'.lastInd = some s.pos)
    (h8 : s'.out = (if s.lastInd = some s.pos then s.out else s.out ++ signs s.pos) ++ [T.shown cs flags s.pos m]) :
    Mirrors T cs flags signs input (made ++ [m]) s' := by
  have hp : placeOf (made ++ [m]) = placeOf made + m.item.length := by rw [placeOf_append, hl]
  constructor
  · rw [h1, hp, h.pos]
  · rw [h2, hp, h.rest, List.drop_drop]
  · rw [hp]
    have := h.inside
    rw [h.rest, List.length_drop] at hin
    omega
  · rw [h3, h.prev, itemsOf_append, dealtWith_append, List.getLast?_append]
    split
    · next h0 =>
      have : m.item.input = [] := List.length_eq_zero_iff.1 (by omega)
      rw [this]
      simp
    · next h0 =>
      cases hg : m.item.input.getLast? with
      | none =>
        have := List.getLast?_eq_none_iff.1 hg
        rw [this] at hl
        exact absurd hl h0
      | some x => rfl
  · rw [h4, itemsOf_append]
  · exact h5
  · rw [h6, itemsOf_append, held_append _ _ _ hl]
  · rw [h7, h1, itemsOf_append, arrived_append]
    by_cases h0 : m.item.length = 0 <;> simp [h0]
  · rw [h8, written_append, h.pos, h.out]
    by_cases ha : arrived (itemsOf made) = false
    · have := h.last.2 ha
      rw [h.pos] at this
      rw [if_pos this, ha]
      simp
    · have : ¬ s.lastInd = some (placeOf made) := fun e => ha (h.last.1 (by rw [h.pos]; exact e))
      rw [if_neg this, if_pos (by simpa using ha)]

theorem settings_more {items : List Resolved} {c : Resolved} {env : Env} (h : env = settings items) (he : SetOnly c.effects) :
    env.applyAll c.effects = .ok (settings (items ++ [c])) := by
  rw [applyAll_settings _ _ he]
  refine congrArg Except.ok (funext fun v => ?_)
  rw [settings_append, h]

theorem settings_none {items : List Resolved} {c : Resolved} (he : c.effects = []) : settings (items ++ [c]) = settings items := by
  funext v
  rw [settings_append, he]
  rfl

theorem spelled_shape (ctx : PrimCtx) (d : Direction) (ops : List PrimOp) (c : Char) :
    ((mainTable ctx d ops).spelled c).input = [c] ∧ ((mainTable ctx d ops).spelled c).length = 1 ∧
    ((mainTable ctx d ops).spelled c).effects = [] := by
  unfold MainTable.spelled
  split
  · next x o h =>
    have h1 := List.mem_of_find?_eq_some h
    have h2 := List.find?_some h
    simp only [beq_iff_eq] at h2
    subst h2
    have h1 : (x, o) ∈ if d = .forward then ops.filterMap fun
        | .char c dots _ origin => some (c, Resolved.new [c] dots 1 .main (some origin))
        | _ => none else [] := h1
    split at h1
    · obtain ⟨op, -, hop⟩ := List.mem_filterMap.1 h1
      cases op <;> simp at hop
      obtain ⟨rfl, rfl⟩ := hop
      exact ⟨rfl, rfl, rfl⟩
    · cases h1
  · exact ⟨rfl, rfl, rfl⟩

theorem mirrors_step (hf : Faithful ctx d ops t) (hp : (mainTable ctx d ops).Plain) {made : List Made} {s : PState}
    (inv : PInv t cs.lower input s) (h : Mirrors (mainTable ctx d ops) cs flags signs input made s) :
    match pStep t cs flags signs input s with
    | .error _ => False
    | .ok (.inl s') => ∃ m, (mainTable ctx d ops).next (listing t cs.lower) cs.lower flags input made = some m ∧
        Mirrors (mainTable ctx d ops) cs flags signs input (made ++ [m]) s'
    | .ok (.inr ts) => (mainTable ctx d ops).next (listing t cs.lower) cs.lower flags input made = none ∧
        ts = (mainTable ctx d ops).trace cs flags signs made := by
  obtain ⟨cands, delayed, hg, hc, -⟩ := gather_spec hf.ok cs flags input inv
  have hg' := gather_choices hf hp h
  rw [hg'] at hg
  simp only [Except.ok.injEq, Prod.mk.injEq] at hg
  obtain ⟨hg1, hg2⟩ := hg
  have hbest : heaviest (((mainTable ctx d ops).choices (listing t cs.lower) cs.lower flags input made).filter
      fun c => !s.seen.contains c.subset) = (mainTable ctx d ops).best (listing t cs.lower) cs.lower flags input made := by
    rw [MainTable.best, lastHeaviest_eq, h.seen]
  have fits : ∀ {o : Resolved}, PCand cs.lower (primZero t input.length) s.rest o → o.length = o.input.length ∧ o.length ≤ s.rest.length := by
    intro o ho
    obtain ⟨a, b, c, e, -, e2, e3⟩ := ho.fits
    refine ⟨by rw [← e3.length, e2], ?_⟩
    rw [e, ← e2]
    simp only [List.length_append]
    omega
  unfold pStep
  simp only [hg', hbest, unbroken_eq h]
  unfold MainTable.next
  cases hu : (mainTable ctx d ops).bestUnbroken (listing t cs.lower) flags input made with
  | some u =>
    have hu' := hu
    rw [← unbroken_eq h] at hu'
    obtain ⟨uc, -, upos, -⟩ := nocross_spec hf.ok cs flags (primZero t input.length) hu'
    have ueff : u.effects = [] := by
      have hm := List.mem_filter.1 (heaviest_mem hu')
      obtain ⟨r, -, -, hfr⟩ := C13_found_rule_applies _ cs.lower d _ _ hf.ok.nocross s.rest s.prev u hm.1
      exact hfr.effects
    have step : Mirrors (mainTable ctx d ops) cs flags signs input (made ++ [⟨.unbroken, u⟩])
        { s with
          rest := s.rest.drop u.length
          prev := u.input.getLast?
          pos := s.pos + u.length
          delayed := updateOffsets ((heldOf ((mainTable ctx d ops).offers cs.lower input) (itemsOf made) ++
            ((mainTable ctx d ops).offers cs.lower input (itemsOf made)).filter (·.offset != 0)).filter (·.offset != 0)) u.length
          lastInd := some s.pos
          out := (if s.lastInd = some s.pos then s.out else s.out ++ signs s.pos) ++ [capitalise t cs flags s.pos u] } := by
      refine mirrors_append (m := ⟨.unbroken, u⟩) h (fits uc).1 (fits uc).2 rfl rfl ?_ ?_ ?_ rfl rfl ?_
      · simp only [show ¬ u.length = 0 by omega, if_false]
      · exact h.env.trans (settings_none ueff).symm
      · simp only [spentOn_append, h.seen, reduceCtorEq, if_false]
      · simp only [shown_eq hf cs flags s.pos (w := .unbroken) (by simp)]
    cases hb : (mainTable ctx d ops).best (listing t cs.lower) cs.lower flags input made with
    | none =>
      simp only [show ¬ u.length = 0 by omega, if_false]
      exact ⟨_, rfl, step⟩
    | some o =>
      by_cases hw : o.weight ≤ u.weight
      · simp only [ge_iff_le, hw, if_true, show ¬ u.length = 0 by omega, if_false]
        exact ⟨_, rfl, step⟩
      · simp only [ge_iff_le, hw, if_false]
        have ho := hc o (by rw [← hg1]; rw [← hbest] at hb; exact (List.mem_filter.1 (heaviest_mem hb)).1)
        simp only [settings_more h.env ho.2.eff]
        refine ⟨_, rfl, ?_⟩
        refine mirrors_append (m := ⟨.line, o⟩) h (fits ho.2).1 (fits ho.2).2 ?_ ?_ rfl rfl ?_ rfl rfl ?_
        · by_cases h0 : o.length = 0 <;> simp [h0]
        · by_cases h0 : o.length = 0 <;> simp [h0]
        · simp only [spentOn_append, h.seen, if_true]
        · simp only [shown_eq hf cs flags s.pos (w := .line) (by simp)]
  | none =>
    cases hb : (mainTable ctx d ops).best (listing t cs.lower) cs.lower flags input made with
    | some o =>
      have ho := hc o (by rw [← hg1]; rw [← hbest] at hb; exact (List.mem_filter.1 (heaviest_mem hb)).1)
      simp only [settings_more h.env ho.2.eff]
      refine ⟨_, rfl, ?_⟩
      refine mirrors_append (m := ⟨.line, o⟩) h (fits ho.2).1 (fits ho.2).2 ?_ ?_ rfl rfl ?_ rfl rfl ?_
      · by_cases h0 : o.length = 0 <;> simp [h0]
      · by_cases h0 : o.length = 0 <;> simp [h0]
      · simp only [spentOn_append, h.seen, if_true]
      · simp only [shown_eq hf cs flags s.pos (w := .line) (by simp)]
    | none =>
      simp only
      have hr := h.rest
      cases hrs : s.rest with
      | nil =>
        rw [hrs] at hr
        simp only [← hr, List.head?_nil, Option.map_none, true_and]
        unfold MainTable.trace
        rw [h.pos, h.out]
        by_cases ha : arrived (itemsOf made) = false
        · have := h.last.2 ha
          rw [h.pos] at this
          rw [if_pos this, ha]
          simp [MainTable.written]
        · have : ¬ s.lastInd = some (placeOf made) := fun e => ha (h.last.1 (by rw [h.pos]; exact e))
          rw [if_neg this, if_pos (by simpa using ha)]
          rfl
      | cons c rest =>
        simp only [spelled_eq hf]
        obtain ⟨p1, p2, p3⟩ := spelled_shape ctx d ops c
        refine ⟨⟨.spelled, (mainTable ctx d ops).spelled c⟩, by rw [← hr, hrs]; rfl, ?_⟩
        refine mirrors_append (m := ⟨.spelled, (mainTable ctx d ops).spelled c⟩) h ?_ ?_ ?_ ?_ ?_ ?_ ?_ ?_ rfl ?_
        · simp only [p1, p2]; rfl
        · simp [p2, hrs]
        · simp [p2]
        · simp [p2, hrs]
        · simp [p1, p2]
        · exact h.env.trans (settings_none p3).symm
        · simp only [spentOn_append, h.seen, reduceCtorEq, if_false]
        · simp only [p2]
        · simp [MainTable.shown]

theorem MainTable.Run.unique {T : MainTable} {L : Listing} {lower : Char → List Char} {a b : List Made}
    (ha : T.Run L lower flags input a) (hb : T.Run L lower flags input b) : a = b := by
  have key : ∀ n, n ≤ a.length → n ≤ b.length ∧ a.take n = b.take n := by
    intro n
    induction n with
    | zero => intro _; simp
    | succ n ih =>
      intro hn
      obtain ⟨h1, h2⟩ := ih (by omega)
      have h3 := ha.each n (by omega)
      rw [h2] at h3
      by_cases h : n < b.length
      · have h4 := hb.each n h
        rw [h3] at h4
        refine ⟨h, ?_⟩
        rw [List.take_succ_eq_append_getElem (by omega), List.take_succ_eq_append_getElem h, h2, Option.some.inj h4]
      · have : n = b.length := by omega
        have h5 := hb.last
        rw [← List.take_length (l := b), ← this, h3] at h5
        cases h5
  obtain ⟨h1, h2⟩ := key a.length (Nat.le_refl _)
  rw [List.take_length] at h2
  by_cases h : a.length < b.length
  · have h4 := hb.each _ h
    rw [← h2, ha.last] at h4
    cases h4
  · rw [List.take_of_length_le (by omega)] at h2
    exact h2

theorem mirrors_loop (hf : Faithful ctx d ops t) (hp : (mainTable ctx d ops).Plain) (hsigns : ∀ p, ∀ r ∈ signs p, r.input = []) :
    ∀ (fuel : Nat) (s : PState) (made : List Made) (ts : List Resolved), PInv t cs.lower input s →
    Mirrors (mainTable ctx d ops) cs flags signs input made s →
    (∀ i (h : i < made.length), (mainTable ctx d ops).next (listing t cs.lower) cs.lower flags input (made.take i) = some made[i]) →
    pLoop t cs flags signs input fuel s = .ok ts →
    ∃ made', (mainTable ctx d ops).Run (listing t cs.lower) cs.lower flags input made' ∧
      ts = (mainTable ctx d ops).trace cs flags signs made' := by
  intro fuel
  induction fuel with
  | zero => intro s made ts _ _ _ h; cases h
  | succ fuel ih =>
    intro s made ts inv h hall hl
    have hm := mirrors_step hf hp inv h
    have hs := pStep_spec hf.ok cs flags signs hsigns input inv
    rw [pLoop] at hl
    rcases hs with ⟨ts', e, -⟩ | ⟨s', e, inv', -⟩
    · rw [e] at hl hm
      cases hl
      exact ⟨made, ⟨hall, hm.1⟩, hm.2⟩
    · rw [e] at hl hm
      obtain ⟨m, hn, hmir⟩ := hm
      refine ih s' (made ++ [m]) ts inv' hmir (fun i hi => ?_) hl
      rw [List.length_append, List.length_singleton] at hi
      by_cases hi' : i < made.length
      · rw [List.take_append_of_le_length (by omega), hall i hi', List.getElem_append_left hi']
      · have : i = made.length := by omega
        subst this
        rw [List.take_left' rfl, hn, List.getElem_concat_length rfl]

theorem main_listed (hb : Built ctx d ops t) (hp : (mainTable ctx d ops).Plain) (cs : Case) (flags : Constraints)
    (signs : Nat → List Resolved) (hsigns : ∀ p, ∀ r ∈ signs p, r.input = []) (input : Text) :
    ∃ made, (mainTable ctx d ops).Run (listing t cs.lower) cs.lower flags input made ∧
      ∀ ts, t.Traces cs flags signs input ts ↔ ts = (mainTable ctx d ops).trace cs flags signs made := by
  have hf := hb.faithful
  obtain ⟨ts, hts, -⟩ := pLoop_total hf.ok cs flags signs hsigns input _ (PState.init input) (PInv.init t cs.lower input)
    (Nat.lt_succ_self _)
  obtain ⟨made, hrun, rfl⟩ := mirrors_loop hf hp hsigns _ _ [] _ (PInv.init t cs.lower input) (Mirrors.init _ _ _ _ _)
    (by intro i h; cases h) hts
  refine ⟨made, hrun, fun ts => ⟨?_, ?_⟩⟩
  · rintro ⟨fuel, h⟩
    obtain ⟨made', h', rfl⟩ := mirrors_loop hf hp hsigns _ _ [] _ (PInv.init t cs.lower input) (Mirrors.init _ _ _ _ _)
      (by intro i h; cases h) h
    rw [h'.unique hrun]
  · rintro rfl
    exact ⟨_, hts⟩

/-- **C73.** The main stage does exactly this: item after item, the heaviest replacement that a line offers for this place,
the last one if there are several; or a piece of text without a hyphen, if there is one that is as heavy; or, if there is
neither, the next character by itself.  The order in which the entries of the dictionaries are listed, `L`, is that of hash
maps; all else is determined by the lines of the table and by the text. -/
theorem C73_main_exact (ctx : PrimCtx) (d : Direction) (ops : List PrimOp) (t : PrimaryTable) (hb : Built ctx d ops t)
    (hp : (mainTable ctx d ops).Plain) (cs : Case) (flags : Constraints) (signs : Nat → List Resolved)
    (hsigns : ∀ p, ∀ r ∈ signs p, r.input = []) (input : Text) :
    ∃ L, (mainTable ctx d ops).Lists cs.lower L ∧ ∃ made, (mainTable ctx d ops).Run L cs.lower flags input made ∧
      (∀ made', (mainTable ctx d ops).Run L cs.lower flags input made' → made' = made) ∧
      ∀ ts, t.Traces cs flags signs input ts ↔ ts = (mainTable ctx d ops).trace cs flags signs made := by
  obtain ⟨made, hrun, htr⟩ := main_listed hb hp cs flags signs hsigns input
  exact ⟨_, hb.faithful.lists cs.lower, made, hrun, fun made' h => h.unique hrun, htr⟩

end

end Louis
