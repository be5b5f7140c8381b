import Verif.Model.Primary
import Verif.Lemmas.MatchPattern
import Verif.Props.Trie

namespace Louis

open Regexp (Fault Compiled Found findAnchored)

/-! ## Tables obtained by compilation -/

/-- The same table, the hash maps of its tries being listed in any order. -/
structure SameTable (t t' : PrimaryTable) : Prop where
  trie : t.trie.SameEntries t'.trie
  comp6 : t.comp6.SameEntries t'.comp6
  nocross : t.nocross.SameEntries t'.nocross
  others : t' = { t with trie := t'.trie, comp6 := t'.comp6, nocross := t'.nocross }

/-- `t` is the main stage built by the operations, for some hash-map iteration order. -/
def Built (ctx : PrimCtx) (d : Direction) (ops : List PrimOp) (t : PrimaryTable) : Prop :=
  ∃ t₀, PrimaryTable.applyAll ctx ops (PrimaryTable.new d ctx) = .ok t₀ ∧ SameTable t₀ t

/-- The rules inserted into the main trie, the nocross trie and the computer braille trie. -/
def trieRules (d : Direction) (ops : List PrimOp) : List TrieRule :=
  ops.filterMap fun
    | .char c dots prec origin => if d = .backward then some ⟨[c], dots, none, none, [], prec, .main, origin⟩ else none
    | .rule false r => some r
    | _ => none

def nocrossRules (ops : List PrimOp) : List TrieRule :=
  ops.filterMap fun
    | .rule true r => some r
    | _ => none

def comp6Rules (ops : List PrimOp) : List TrieRule :=
  ops.filterMap fun
    | .comp6 r => some r
    | _ => none

/-- What building establishes about the table. -/
structure BuildInv (ctx : PrimCtx) (d : Direction) (ops : List PrimOp) (t : PrimaryTable) : Prop where
  dir : t.direction = d
  defs : t.fallbackDefs = ctx.defs
  trie : Trie.insertAll ctx.trieClasses d (trieRules d ops) Trie.empty = some t.trie
  nocross : Trie.insertAll ctx.trieClasses d (nocrossRules ops) Trie.empty = some t.nocross
  comp6 : Trie.insertAll ctx.trieClasses d (comp6Rules ops) Trie.empty = some t.comp6
  matchPats : ∀ p ∈ t.matchPats, ∃ pre chars post to origin, compileMatch ctx.classes pre chars post to origin = some p
  matchOps : ∀ p ∈ t.matchPats, ∃ pre chars post to origin, PrimOp.matchRule pre chars post to origin ∈ ops ∧
    compileMatch ctx.classes pre chars post to origin = some p
  contextOps : ∀ p ∈ t.contextPats, ∃ test action origin, PrimOp.context test action origin ∈ ops ∧
    compilePattern ctx.classes ctx.swaps .main .default origin test action = .ok p
  contextPats : PatternsOk MpPayload t.contextPats
  charTrans : t.charTrans = (if d = .forward then ops.filterMap fun
    | .char c dots _ origin => some (c, Resolved.new [c] dots 1 .main (some origin))
    | _ => none else [])
  digits : ∀ c r, (c, r) ∈ t.digitOverrides → ∃ o origin, r = Resolved.new [c] [o] 1 .main (some origin) ∧
    PrimOp.digitOverride c o origin ∈ ops
  undefined : t.undefined = (ops.filterMap fun | .undefined dots => some dots | _ => none).getLast?

theorem insertAll_append {ctx : CharClasses} {d : Direction} : ∀ (a b : List TrieRule) (t : Trie),
    Trie.insertAll ctx d (a ++ b) t = (Trie.insertAll ctx d a t).bind (Trie.insertAll ctx d b)
  | [], b, t => rfl
  | r :: a, b, t => by
    simp only [List.cons_append, Trie.insertAll]
    cases h : Trie.insert ctx d r t with
    | none => rfl
    | some t' => simp [insertAll_append a b t']

theorem insertAll_snoc {ctx : CharClasses} {d : Direction} {rs : List TrieRule} {t t' t'' : Trie} {r : TrieRule}
    (h : Trie.insertAll ctx d rs t = some t') (h' : t'.insert ctx d r = some t'') :
    Trie.insertAll ctx d (rs ++ [r]) t = some t'' := by
  rw [insertAll_append, h]
  simp [Trie.insertAll, h']

theorem orPanic_ok {α : Type} {o : Option α} {a : α} (h : orPanic o = .ok a) : o = some a := by
  cases o with
  | none => cases h
  | some x => cases h; rfl

theorem buildInv_step {ctx : PrimCtx} {d : Direction} {ops : List PrimOp} {op : PrimOp} {t t' : PrimaryTable}
    (inv : BuildInv ctx d ops t) (h : t.apply ctx op = .ok t') : BuildInv ctx d (ops ++ [op]) t' := by
  have hd := inv.dir
  have hmo : ∀ p ∈ t.matchPats, ∃ pre chars post to origin, PrimOp.matchRule pre chars post to origin ∈ ops ++ [op] ∧
      compileMatch ctx.classes pre chars post to origin = some p := by
    intro p hp
    obtain ⟨a, b, c, e, f, g, i⟩ := inv.matchOps p hp
    exact ⟨a, b, c, e, f, List.mem_append_left _ g, i⟩
  have hco : ∀ p ∈ t.contextPats, ∃ test action origin, PrimOp.context test action origin ∈ ops ++ [op] ∧
      compilePattern ctx.classes ctx.swaps .main .default origin test action = .ok p := by
    intro p hp
    obtain ⟨a, b, c, g, i⟩ := inv.contextOps p hp
    exact ⟨a, b, c, List.mem_append_left _ g, i⟩
  have hdg : ∀ c r, (c, r) ∈ t.digitOverrides → ∃ o origin, r = Resolved.new [c] [o] 1 .main (some origin) ∧
      PrimOp.digitOverride c o origin ∈ ops ++ [op] := by
    intro c r h
    obtain ⟨a, b, e, m⟩ := inv.digits c r h
    exact ⟨a, b, e, List.mem_append_left _ m⟩
  cases op with
  | char c dots prec origin =>
    simp only [PrimaryTable.apply] at h
    cases d with
    | forward =>
      rw [hd] at h
      simp only [Except.ok.injEq] at h
      subst h
      have := inv.charTrans
      simp only [if_true] at this
      constructor
      · rfl
      · exact inv.defs
      · simpa [trieRules, List.filterMap_append] using inv.trie
      · simpa [nocrossRules, List.filterMap_append] using inv.nocross
      · simpa [comp6Rules, List.filterMap_append] using inv.comp6
      · exact inv.matchPats
      · exact hmo
      · exact hco
      · exact inv.contextPats
      · simp [List.filterMap_append, this]
      · exact hdg
      · simpa [List.filterMap_append] using inv.undefined
    | backward =>
      rw [hd] at h
      simp only at h
      split at h
      · cases h
      · next trie ht =>
        cases h
        have ht := orPanic_ok ht
        constructor
        · rfl
        · exact inv.defs
        · have e : trieRules .backward (ops ++ [.char c dots prec origin]) =
              trieRules .backward ops ++ [⟨[c], dots, none, none, [], prec, .main, origin⟩] := by
            simp [trieRules, List.filterMap_append]
          rw [e]
          exact insertAll_snoc inv.trie ht
        · simpa [nocrossRules, List.filterMap_append] using inv.nocross
        · simpa [comp6Rules, List.filterMap_append] using inv.comp6
        · exact inv.matchPats
        · exact hmo
        · exact hco
        · exact inv.contextPats
        · simpa using inv.charTrans
        · exact hdg
        · simpa [List.filterMap_append] using inv.undefined
  | rule nc r =>
    cases nc with
    | false =>
      simp only [PrimaryTable.apply] at h
      split at h
      · cases h
      · next trie ht =>
        cases h
        rw [hd] at ht
        have ht := orPanic_ok ht
        constructor
        · exact hd
        · exact inv.defs
        · have e : trieRules d (ops ++ [.rule false r]) = trieRules d ops ++ [r] := by
            simp [trieRules, List.filterMap_append]
          rw [e]
          exact insertAll_snoc inv.trie ht
        · simpa [nocrossRules, List.filterMap_append] using inv.nocross
        · simpa [comp6Rules, List.filterMap_append] using inv.comp6
        · exact inv.matchPats
        · exact hmo
        · exact hco
        · exact inv.contextPats
        · simpa [List.filterMap_append] using inv.charTrans
        · exact hdg
        · simpa [List.filterMap_append] using inv.undefined
    | true =>
      simp only [PrimaryTable.apply] at h
      split at h
      · cases h
      · next trie ht =>
        cases h
        rw [hd] at ht
        have ht := orPanic_ok ht
        constructor
        · exact hd
        · exact inv.defs
        · simpa [trieRules, List.filterMap_append] using inv.trie
        · have e : nocrossRules (ops ++ [.rule true r]) = nocrossRules ops ++ [r] := by
            simp [nocrossRules, List.filterMap_append]
          rw [e]
          exact insertAll_snoc inv.nocross ht
        · simpa [comp6Rules, List.filterMap_append] using inv.comp6
        · exact inv.matchPats
        · exact hmo
        · exact hco
        · exact inv.contextPats
        · simpa [List.filterMap_append] using inv.charTrans
        · exact hdg
        · simpa [List.filterMap_append] using inv.undefined
  | comp6 r =>
    simp only [PrimaryTable.apply] at h
    split at h
    · cases h
    · next trie ht =>
      cases h
      rw [hd] at ht
      have ht := orPanic_ok ht
      constructor
      · exact hd
      · exact inv.defs
      · simpa [trieRules, List.filterMap_append] using inv.trie
      · simpa [nocrossRules, List.filterMap_append] using inv.nocross
      · have e : comp6Rules (ops ++ [.comp6 r]) = comp6Rules ops ++ [r] := by
          simp [comp6Rules, List.filterMap_append]
        rw [e]
        exact insertAll_snoc inv.comp6 ht
      · exact inv.matchPats
      · exact hmo
      · exact hco
      · exact inv.contextPats
      · simpa [List.filterMap_append] using inv.charTrans
      · exact hdg
      · simpa [List.filterMap_append] using inv.undefined
  | matchRule pre chars post to origin =>
    simp only [PrimaryTable.apply] at h
    split at h
    · cases h
    · next p hp =>
      cases h
      have hp := orPanic_ok hp
      constructor
      · exact hd
      · exact inv.defs
      · simpa [trieRules, List.filterMap_append] using inv.trie
      · simpa [nocrossRules, List.filterMap_append] using inv.nocross
      · simpa [comp6Rules, List.filterMap_append] using inv.comp6
      · intro q hq
        rcases List.mem_append.1 hq with hq | hq
        · exact inv.matchPats q hq
        · simp only [List.mem_singleton] at hq; subst hq; exact ⟨_, _, _, _, _, hp⟩
      · intro q hq
        rcases List.mem_append.1 hq with hq | hq
        · exact hmo q hq
        · simp only [List.mem_singleton] at hq; subst hq; exact ⟨_, _, _, _, _, by simp, hp⟩
      · exact hco
      · exact inv.contextPats
      · simpa [List.filterMap_append] using inv.charTrans
      · exact hdg
      · simpa [List.filterMap_append] using inv.undefined
  | context test action origin =>
    simp only [PrimaryTable.apply] at h
    split at h
    · cases h
    · next p hp =>
      cases h
      constructor
      · exact hd
      · exact inv.defs
      · simpa [trieRules, List.filterMap_append] using inv.trie
      · simpa [nocrossRules, List.filterMap_append] using inv.nocross
      · simpa [comp6Rules, List.filterMap_append] using inv.comp6
      · exact inv.matchPats
      · exact hmo
      · intro q hq
        rcases List.mem_append.1 hq with hq | hq
        · exact hco q hq
        · simp only [List.mem_singleton] at hq; subst hq; exact ⟨_, _, _, by simp, hp⟩
      · intro q hq
        rcases List.mem_append.1 hq with hq | hq
        · exact inv.contextPats q hq
        · simp only [List.mem_singleton] at hq; subst hq; exact compilePattern_ok hp
      · simpa [List.filterMap_append] using inv.charTrans
      · exact hdg
      · simpa [List.filterMap_append] using inv.undefined
  | undefined dots =>
    simp only [PrimaryTable.apply] at h
    cases h
    constructor
    · exact hd
    · exact inv.defs
    · simpa [trieRules, List.filterMap_append] using inv.trie
    · simpa [nocrossRules, List.filterMap_append] using inv.nocross
    · simpa [comp6Rules, List.filterMap_append] using inv.comp6
    · exact inv.matchPats
    · exact hmo
    · exact hco
    · exact inv.contextPats
    · simpa [List.filterMap_append] using inv.charTrans
    · exact hdg
    · simp [List.filterMap_append]
  | digitOverride cell character origin =>
    simp only [PrimaryTable.apply] at h
    cases h
    constructor
    · exact hd
    · exact inv.defs
    · simpa [trieRules, List.filterMap_append] using inv.trie
    · simpa [nocrossRules, List.filterMap_append] using inv.nocross
    · simpa [comp6Rules, List.filterMap_append] using inv.comp6
    · exact inv.matchPats
    · exact hmo
    · exact hco
    · exact inv.contextPats
    · simpa [List.filterMap_append] using inv.charTrans
    · intro c r hr
      simp only [List.mem_cons, Prod.mk.injEq] at hr
      rcases hr with ⟨rfl, rfl⟩ | hr
      · exact ⟨_, _, rfl, by simp⟩
      · exact hdg c r hr
    · simpa [List.filterMap_append] using inv.undefined

theorem buildInv_all {ctx : PrimCtx} {d : Direction} : ∀ {ops done : List PrimOp} {t t' : PrimaryTable},
    BuildInv ctx d done t → PrimaryTable.applyAll ctx ops t = .ok t' → BuildInv ctx d (done ++ ops) t' := by
  intro ops
  induction ops with
  | nil => intro done t t' inv h; cases h; simpa using inv
  | cons op ops ih =>
    intro done t t' inv h
    simp only [PrimaryTable.applyAll] at h
    split at h
    · cases h
    · next t1 h1 =>
      have := ih (buildInv_step inv h1) h
      simpa using this

theorem buildInv_new (ctx : PrimCtx) (d : Direction) : BuildInv ctx d [] (PrimaryTable.new d ctx) := by
  constructor <;> simp [PrimaryTable.new, trieRules, nocrossRules, comp6Rules, Trie.insertAll, PatternsOk]

/-- What a compiled main stage looks like, whatever the hash-map order. -/
structure PrimOk (ctx : PrimCtx) (d : Direction) (ops : List PrimOp) (t : PrimaryTable) : Prop where
  dir : t.direction = d
  defs : t.fallbackDefs = ctx.defs
  trie : Dictionary ctx.trieClasses d (trieRules d ops) t.trie
  nocross : Dictionary ctx.trieClasses d (nocrossRules ops) t.nocross
  comp6 : Dictionary ctx.trieClasses d (comp6Rules ops) t.comp6
  matchPats : ∀ p ∈ t.matchPats, ∃ pre chars post to origin, compileMatch ctx.classes pre chars post to origin = some p
  matchOps : ∀ p ∈ t.matchPats, ∃ pre chars post to origin, PrimOp.matchRule pre chars post to origin ∈ ops ∧
    compileMatch ctx.classes pre chars post to origin = some p
  contextOps : ∀ p ∈ t.contextPats, ∃ test action origin, PrimOp.context test action origin ∈ ops ∧
    compilePattern ctx.classes ctx.swaps .main .default origin test action = .ok p
  contextPats : PatternsOk MpPayload t.contextPats
  charTrans : t.charTrans = (if d = .forward then ops.filterMap fun
    | .char c dots _ origin => some (c, Resolved.new [c] dots 1 .main (some origin))
    | _ => none else [])
  digits : ∀ c r, (c, r) ∈ t.digitOverrides → ∃ o origin, r = Resolved.new [c] [o] 1 .main (some origin) ∧
    PrimOp.digitOverride c o origin ∈ ops
  undefined : t.undefined = (ops.filterMap fun | .undefined dots => some dots | _ => none).getLast?

theorem Built.ok {ctx : PrimCtx} {d : Direction} {ops : List PrimOp} {t : PrimaryTable} (h : Built ctx d ops t) :
    PrimOk ctx d ops t := by
  obtain ⟨t₀, h0, hs⟩ := h
  have inv := buildInv_all (buildInv_new ctx d) h0
  simp only [List.nil_append] at inv
  have ho := hs.others
  have f1 : t.direction = t₀.direction := by rw [ho]
  have f2 : t.fallbackDefs = t₀.fallbackDefs := by rw [ho]
  have f3 : t.matchPats = t₀.matchPats := by rw [ho]
  have f4 : t.contextPats = t₀.contextPats := by rw [ho]
  have f5 : t.charTrans = t₀.charTrans := by rw [ho]
  have f6 : t.digitOverrides = t₀.digitOverrides := by rw [ho]
  have f7 : t.undefined = t₀.undefined := by rw [ho]
  constructor
  · rw [f1]; exact inv.dir
  · rw [f2]; exact inv.defs
  · exact ⟨t₀.trie, inv.trie, hs.trie⟩
  · exact ⟨t₀.nocross, inv.nocross, hs.nocross⟩
  · exact ⟨t₀.comp6, inv.comp6, hs.comp6⟩
  · rw [f3]; exact inv.matchPats
  · rw [f3]; exact inv.matchOps
  · rw [f4]; exact inv.contextOps
  · rw [f4]; exact inv.contextPats
  · rw [f5]; exact inv.charTrans
  · rw [f6]; exact inv.digits
  · rw [f7]; exact inv.undefined

theorem mem_assoc {α : Type} {c : Char} {l : List (Char × α)} {a : α} (h : assoc c l = some a) : (c, a) ∈ l := by
  simp only [assoc, Option.map_eq_some_iff] at h
  obtain ⟨⟨c', a'⟩, h, rfl⟩ := h
  have h1 := List.mem_of_find?_eq_some h
  have h2 := List.find?_some h
  simp only [beq_iff_eq] at h2
  subst h2
  exact h1

/-- A plain character translation reports exactly the character. -/
theorem PrimOk.charTrans_input {ctx d ops t} (h : PrimOk ctx d ops t) {c : Char} {r : Resolved} (hr : assoc c t.charTrans = some r) :
    ∃ dots origin, r = Resolved.new [c] dots 1 .main (some origin) := by
  have := mem_assoc hr
  rw [h.charTrans] at this
  split at this
  · simp only [List.mem_filterMap] at this
    obtain ⟨op, -, hop⟩ := this
    cases op <;> simp at hop
    obtain ⟨rfl, rfl⟩ := hop
    exact ⟨_, _, rfl⟩
  · cases this

/-! ## Candidates -/

/-- How the reported input relates to the text it stands for: equal, or its lowercase spelling. -/
def Reported (lower : Char → List Char) (text inp : Text) : Prop := text = inp ∨ Spells lower text inp

theorem Reported.length {lower text inp} (h : Reported lower text inp) : text.length = inp.length := by
  rcases h with rfl | h
  · rfl
  · exact spells_length h

structure PCand (lower : Char → List Char) (zs : List Subset) (rest : Text) (t : Resolved) : Prop where
  fits : Fits (Reported lower) rest t
  eff : SetOnly t.effects
  zero : t.length = 0 → t.subset ∈ zs

theorem pCand_updateOffsets {lower zs rest} {l : List Resolved} (h : ∀ t ∈ l, PCand lower zs rest t) (m : Nat) :
    ∀ t ∈ updateOffsets l m, PCand lower zs (rest.drop m) t := by
  intro t ht
  simp only [updateOffsets, List.mem_map, List.mem_filter, decide_eq_true_eq] at ht
  obtain ⟨u, ⟨hu, hn⟩, rfl⟩ := ht
  exact ⟨(h u hu).fits.drop m hn, (h u hu).eff, (h u hu).zero⟩

theorem dict_cand {ctx : CharClasses} {d : Direction} {rules : List TrieRule} {t : Trie} (h : Dictionary ctx d rules t)
    (lower : Char → List Char) (zs : List Subset) (rest : Text) (prev : Option Char) {tr : Resolved}
    (htr : tr ∈ t.find lower rest prev) : PCand lower zs rest tr ∧ tr.offset = 0 ∧ 0 < tr.length := by
  obtain ⟨r, hr, ⟨consumed, tail, e, hs, -⟩, hf⟩ := C13_found_rule_applies ctx lower d rules t h rest prev tr htr
  have hne : 0 < tr.length := by
    obtain ⟨t0, h0, -⟩ := h
    have := (insertAll_spec h0 map_empty).2.2 r hr
    rw [hf.length]
    exact List.length_pos_iff.2 this
  refine ⟨⟨⟨[], consumed, tail, by simpa using e, by simp [hf.offset], ?_, ?_⟩, ?_, fun h0 => absurd h0 (by omega)⟩, hf.offset, hne⟩
  · rw [hf.length]; exact spells_length hs
  · rw [hf.input]; exact .inr hs
  · rw [hf.effects]; intro e he; cases he

theorem patternsFind_mem {lower : Char → List Char} {input : Text} {env : Env} {atStart : Bool} :
    ∀ {ps : List (Compiled Translation)} {l}, patternsFind ps lower input env atStart = .ok l → ∀ t ∈ l,
      ∃ p ∈ ps, ∃ f, findAnchored p lower input env atStart = .ok (some f) ∧ t = f.payload.resolve f.capture f.length f.offset := by
  intro ps
  induction ps with
  | nil => intro l h t ht; cases h; cases ht
  | cons q qs ih =>
    intro l h t ht
    simp only [patternsFind] at h
    split at h
    · cases h
    · next r hr =>
      split at h
      · cases h
      · next rs hrs =>
        split at h
        · cases h
          obtain ⟨p, hp, f, hf⟩ := ih hrs t ht
          exact ⟨p, List.mem_cons_of_mem _ hp, f, hf⟩
        · next f =>
          cases h
          rcases List.mem_cons.1 ht with rfl | ht
          · exact ⟨q, List.mem_cons_self .., f, hr, rfl⟩
          · obtain ⟨p, hp, f, hf⟩ := ih hrs t ht
            exact ⟨p, List.mem_cons_of_mem _ hp, f, hf⟩

theorem matchFind_cand {ctx : CharClasses} {ps : List (Compiled Translation)}
    (h : ∀ p ∈ ps, ∃ pre chars post to origin, compileMatch ctx pre chars post to origin = some p) (lower : Char → List Char)
    (rest : Text) (env : Env) (atStart : Bool) (n : Nat) (hn : rest.length ≤ n) (zs : List Subset) :
    ∃ l, patternsFind ps lower rest env atStart = .ok l ∧ ∀ t ∈ l, PCand lower (zeroSubsets ps n ++ zs) rest t := by
  have hok : PatternsOk (fun _ => True) ps := by
    intro p hp
    obtain ⟨pre, chars, post, to, origin, hc⟩ := h p hp
    simp only [compileMatch, Option.map_eq_some_iff] at hc
    obtain ⟨r, -, rfl⟩ := hc
    exact ⟨_, _, rfl, trivial⟩
  obtain ⟨l, e, -⟩ := patternsFind_spec (lower := lower) (input := rest) (env := env) (atStart := atStart) hok
  refine ⟨l, e, ?_⟩
  intro t ht
  obtain ⟨p, hp, f, hf, rfl⟩ := patternsFind_mem e t ht
  obtain ⟨pre, chars, post, to, origin, hc⟩ := h p hp
  obtain ⟨hpay, before, after, e1, e2, e3, hs⟩ := matchRule_found hc hf
  rw [hpay]
  refine ⟨⟨before, f.capture, after, e1, e2.symm, spells_length hs, .inr hs⟩, ?_, ?_⟩
  · intro x hx; cases hx
  · intro h0
    refine List.mem_append_left _ ?_
    simp only [zeroSubsets, List.mem_flatMap]
    refine ⟨p, hp, .resolved (Resolved.new chars to 0 .main (some origin)), ?_, ?_⟩
    · simp only [compileMatch, Option.map_eq_some_iff] at hc
      obtain ⟨r, -, rfl⟩ := hc
      simp [translations_compile]
    · simp only [List.mem_map, List.mem_range]
      exact ⟨f.length, by omega, rfl⟩

theorem contextFind_cand {ps : List (Compiled Translation)} (h : PatternsOk MpPayload ps) (lower : Char → List Char)
    (rest : Text) (env : Env) (atStart : Bool) (n : Nat) (hn : rest.length ≤ n) (zs : List Subset) :
    ∃ l, patternsFind ps lower rest env atStart = .ok l ∧ ∀ t ∈ l, PCand lower (zs ++ zeroSubsets ps n) rest t := by
  obtain ⟨l, e, hl⟩ := patternsFind_cand h lower rest env atStart n hn
  refine ⟨l, e, ?_⟩
  intro t ht
  obtain ⟨⟨pre, mid, post, h1, h2, h3, h4⟩, he, hz⟩ := hl t ht
  exact ⟨⟨pre, mid, post, h1, h2, h3, .inl h4⟩, he, fun h0 => List.mem_append_right _ (hz h0)⟩

/-! ## The main loop -/

/-- The zero-width translations that can occur on a text of at most `n` characters. -/
def primZero (t : PrimaryTable) (n : Nat) : List Subset := zeroSubsets t.matchPats n ++ zeroSubsets t.contextPats n

/-- The translations account for the text, one after the other: each stands for the next piece of the text. -/
inductive Covered (lower : Char → List Char) : List Resolved → Text → Prop where
  | nil : Covered lower [] []
  | cons {t ts text rest} : Reported lower text t.input → Covered lower ts rest → Covered lower (t :: ts) (text ++ rest)

theorem Covered.append {lower ts us a b} (h : Covered lower ts a) (h' : Covered lower us b) : Covered lower (ts ++ us) (a ++ b) := by
  induction h with
  | nil => exact h'
  | cons hr _ ih => rw [List.cons_append, List.append_assoc]; exact .cons hr ih

theorem Covered.single {lower t text} (h : Reported lower text t.input) : Covered lower [t] text := by
  have := Covered.cons h Covered.nil
  simpa using this

theorem Covered.empty {lower} : ∀ {ts : List Resolved}, (∀ t ∈ ts, t.input = []) → Covered lower ts []
  | [], _ => .nil
  | t :: ts, h => by
    have := Covered.cons (lower := lower) (t := t) (text := []) (.inl (h t (List.mem_cons_self ..)).symm)
      (Covered.empty (fun x hx => h x (List.mem_cons_of_mem _ hx)))
    simpa using this

structure PInv (t : PrimaryTable) (lower : Char → List Char) (input : Text) (s : PState) : Prop where
  split : ∃ consumed, input = consumed ++ s.rest ∧ s.pos = consumed.length ∧ Covered lower s.out consumed
  cand : ∀ c ∈ s.delayed, PCand lower (primZero t input.length) s.rest c
  seenSub : ∀ x ∈ s.seen, x ∈ primZero t input.length
  seenNodup : s.seen.Nodup

theorem PInv.init (t : PrimaryTable) (lower : Char → List Char) (input : Text) : PInv t lower input (PState.init input) :=
  ⟨⟨[], rfl, rfl, .nil⟩, by simp [PState.init], by simp [PState.init], by simp [PState.init]⟩

theorem gather_spec {ctx d ops} {t : PrimaryTable} (h : PrimOk ctx d ops t) (cs : Case) (cons : Constraints) (input : Text)
    {s : PState} (inv : PInv t cs.lower input s) :
    ∃ cands delayed, gather t cs cons input s = .ok (cands, delayed) ∧
      (∀ c ∈ cands, c.offset = 0 ∧ PCand cs.lower (primZero t input.length) s.rest c) ∧
      (∀ c ∈ delayed, PCand cs.lower (primZero t input.length) s.rest c) := by
  have hrest : s.rest.length ≤ input.length := by
    obtain ⟨c, e, -⟩ := inv.split; rw [e]; simp
  obtain ⟨ms, e1, h1⟩ := matchFind_cand h.matchPats cs.lower s.rest Env.new (Regexp.utf8Len s.rest == Regexp.utf8Len input)
    input.length hrest (zeroSubsets t.contextPats input.length)
  obtain ⟨xs, e2, h2⟩ := contextFind_cand h.contextPats cs.lower s.rest s.env (Regexp.utf8Len s.rest == Regexp.utf8Len input)
    input.length hrest (zeroSubsets t.matchPats input.length)
  have htr : ∀ c ∈ t.trie.find cs.lower s.rest s.prev, PCand cs.lower (primZero t input.length) s.rest c :=
    fun c hc => (dict_cand h.trie cs.lower _ s.rest s.prev hc).1
  generalize hdl : s.delayed ++ (t.trie.find cs.lower s.rest s.prev).filter (·.offset != 0) ++ ms.filter (·.offset != 0) ++
    xs.filter (·.offset != 0) = dl
  have hdel : ∀ c ∈ dl, PCand cs.lower (primZero t input.length) s.rest c := by
    intro c hc
    subst hdl
    simp only [List.mem_append, List.mem_filter] at hc
    rcases hc with ((hc | hc) | hc) | hc
    · exact inv.cand c hc
    · exact htr c hc.1
    · exact h1 c hc.1
    · exact h2 c hc.1
  generalize hcd : (t.trie.find cs.lower s.rest s.prev).filter (·.offset == 0) ++ ms.filter (·.offset == 0) ++
    xs.filter (·.offset == 0) ++ dl.filter (·.offset == 0) = cd
  have hcand : ∀ c ∈ cd, c.offset = 0 ∧ PCand cs.lower (primZero t input.length) s.rest c := by
    intro c hc
    subst hcd
    simp only [List.mem_append, List.mem_filter, beq_iff_eq] at hc
    rcases hc with ((hc | hc) | hc) | hc
    · exact ⟨hc.2, htr c hc.1⟩
    · exact ⟨hc.2, h1 c hc.1⟩
    · exact ⟨hc.2, h2 c hc.1⟩
    · exact ⟨hc.2, hdel c hc.1⟩
  refine ⟨selectCandidates t cs cons s cd, dl.filter (·.offset != 0), ?_, ?_, fun c hc => hdel c (List.mem_filter.1 hc).1⟩
  · simp only [gather, e1, e2, hdl, hcd]
  · have p1 : ∀ c ∈ cd.filter (punctOk cons s.pos), c.offset = 0 ∧ PCand cs.lower (primZero t input.length) s.rest c :=
      fun c hc => hcand c (List.mem_filter.1 hc).1
    have p2 : ∀ c ∈ preferDigit t cons s (cd.filter (punctOk cons s.pos)), c.offset = 0 ∧
        PCand cs.lower (primZero t input.length) s.rest c := by
      unfold preferDigit
      split
      · split
        · exact p1
        · next x rest hx =>
          split
          · exact p1
          · next dg hdg =>
            intro c hc
            rcases List.mem_append.1 hc with hc | hc
            · exact p1 c (List.mem_filter.1 hc).1
            · simp only [List.mem_singleton] at hc
              subst hc
              obtain ⟨o, org, rfl, -⟩ := h.digits x c (mem_assoc hdg)
              refine ⟨rfl, ⟨⟨[], [x], rest, by simp [hx], rfl, rfl, .inl rfl⟩, ?_, ?_⟩⟩
              · intro e he; cases he
              · intro h0; simp [Resolved.new] at h0
      · exact p1
    intro c hc
    unfold selectCandidates at hc
    simp only at hc
    split at hc
    · have := dict_cand h.comp6 cs.lower (primZero t input.length) s.rest s.prev hc
      exact ⟨this.2.1, this.1⟩
    · split at hc
      · exact p2 c (List.mem_filter.1 hc).1
      · exact p2 c hc

theorem nocross_spec {ctx d ops} {t : PrimaryTable} (h : PrimOk ctx d ops t) (cs : Case) (cons : Constraints) (zs : List Subset)
    {s : PState} {n : Resolved} (hn : nocrossCandidate t cs cons s = some n) :
    PCand cs.lower zs s.rest n ∧ n.offset = 0 ∧ 0 < n.length ∧
      ∀ p, s.pos ≤ p → p + 1 < s.pos + n.length → cons.hyphenationBreak p = false := by
  have hm := List.mem_filter.1 (heaviest_mem hn)
  obtain ⟨h1, h2, h3⟩ := dict_cand h.nocross cs.lower zs s.rest s.prev hm.1
  refine ⟨h1, h2, h3, ?_⟩
  intro p hp hp'
  have := hm.2
  simp only [Bool.not_eq_true', List.any_eq_false, List.mem_range'_1, Bool.not_eq_true] at this
  exact this p ⟨hp, by omega⟩

theorem digit_chars (d : Nat) (h : d < 16) : fallbackCell (Nat.digitChar d) ≠ none := by
  match d, h with
  | 0, _ | 1, _ | 2, _ | 3, _ | 4, _ | 5, _ | 6, _ | 7, _ | 8, _ | 9, _ | 10, _ | 11, _ | 12, _ | 13, _ | 14, _ | 15, _ =>
    decide
  | n + 16, h => omega

theorem toDigitsCore_mem (fuel : Nat) : ∀ (n : Nat) (acc : List Char) (c : Char), c ∈ Nat.toDigitsCore 16 fuel n acc →
    c ∈ acc ∨ ∃ d, d < 16 ∧ c = Nat.digitChar d := by
  induction fuel with
  | zero => intro n acc c h; exact .inl h
  | succ fuel ih =>
    intro n acc c h
    simp only [Nat.toDigitsCore] at h
    split at h
    · rcases List.mem_cons.1 h with rfl | h
      · exact .inr ⟨n % 16, Nat.mod_lt _ (by omega), rfl⟩
      · exact .inl h
    · rcases ih _ _ _ h with h | h
      · rcases List.mem_cons.1 h with rfl | h
        · exact .inr ⟨n % 16, Nat.mod_lt _ (by omega), rfl⟩
        · exact .inl h
      · exact .inr h

/-- Every character of an escape has a fallback cell: `fallback` cannot panic. -/
theorem escape_fallback (c : Char) : ∀ x ∈ escapeChar c, fallbackCell x ≠ none := by
  intro x hx
  simp only [escapeChar, List.mem_cons, hexDigits, Nat.toDigits] at hx
  rcases hx with rfl | rfl | hx
  · decide
  · decide
  · rcases toDigitsCore_mem _ _ _ _ hx with h | ⟨d, hd, rfl⟩
    · cases h
    · exact digit_chars d hd

theorem escapeCells_ok (defs : List (Char × Text)) : ∀ (w : Text), (∀ x ∈ w, fallbackCell x ≠ none) →
    escapeCells defs w = .ok (w.flatMap fun c => (assoc c defs).getD ((fallbackCell c).toList))
  | [], _ => rfl
  | c :: cs, h => by
    rw [escapeCells, escapeCells_ok defs cs (fun x hx => h x (List.mem_cons_of_mem _ hx))]
    simp only [List.flatMap_cons]
    cases ha : assoc c defs with
    | some t => rfl
    | none =>
      cases hf : fallbackCell c with
      | none => exact absurd hf (h c (List.mem_cons_self ..))
      | some cell => rfl

theorem handleUndefined_ok (t : PrimaryTable) (c : Char) : ∃ dots, handleUndefined t c = .ok dots :=
  ⟨_, escapeCells_ok _ _ (escape_fallback c)⟩

theorem plain_ok {ctx d ops} {t : PrimaryTable} (h : PrimOk ctx d ops t) (c : Char) :
    ∃ r, plainTranslation t c = .ok r ∧ r.input = [c] := by
  unfold plainTranslation
  split
  · next r hr =>
    obtain ⟨_, _, rfl⟩ := h.charTrans_input hr
    exact ⟨_, rfl, rfl⟩
  · split
    · exact ⟨_, rfl, rfl⟩
    · obtain ⟨dots, hd⟩ := handleUndefined_ok t c
      rw [hd]
      exact ⟨_, rfl, rfl⟩

theorem capitalise_input (t : PrimaryTable) (cs : Case) (cons : Constraints) (pos : Nat) (r : Resolved) :
    (capitalise t cs cons pos r).input = r.input := by
  unfold capitalise
  split
  · rfl
  · split <;> rfl

def pMeasure (u : Nat) (s : PState) : Nat := s.rest.length * (u + 1) + (u - s.seen.length)

/-- One iteration: either it is the last one and everything is accounted for, or it makes progress. -/
theorem pStep_spec {ctx d ops} {t : PrimaryTable} (h : PrimOk ctx d ops t) (cs : Case) (cons : Constraints)
    (ind : Nat → List Resolved) (hind : ∀ p, ∀ r ∈ ind p, r.input = []) (input : Text)
    {s : PState} (inv : PInv t cs.lower input s) :
    (∃ ts, pStep t cs cons ind input s = .ok (.inr ts) ∧ Covered cs.lower ts input) ∨
    ∃ s', pStep t cs cons ind input s = .ok (.inl s') ∧ PInv t cs.lower input s' ∧
      pMeasure (primZero t input.length).length s' < pMeasure (primZero t input.length).length s := by
  obtain ⟨cands, delayed, hg, hc, hdel⟩ := gather_spec h cs cons input inv
  obtain ⟨consumed, hin, hpos, hcov⟩ := inv.split
  generalize hout : (if s.lastInd = some s.pos then s.out else s.out ++ ind s.pos) = out
  have hcov' : Covered cs.lower out consumed := by
    subst hout
    split
    · exact hcov
    · have := hcov.append (Covered.empty (hind s.pos))
      simpa using this
  have hstep : ∀ (n : Resolved), n.offset = 0 → PCand cs.lower (primZero t input.length) s.rest n →
      ∃ consumed', input = consumed' ++ s.rest.drop n.length ∧ s.pos + n.length = consumed'.length ∧
        Covered cs.lower (out ++ [capitalise t cs cons s.pos n]) consumed' := by
    intro n hn0 hn
    obtain ⟨hrep, hle⟩ := hn.fits.now hn0
    refine ⟨consumed ++ s.rest.take n.length, ?_, ?_, ?_⟩
    · rw [List.append_assoc, List.take_append_drop]; exact hin
    · simp [hpos]; omega
    · exact hcov'.append (Covered.single (by rw [capitalise_input]; exact hrep))
  have hmeas : ∀ (m : Nat) (U : Nat), 0 < m → m ≤ s.rest.length →
      (s.rest.length - m) * (U + 1) + U < s.rest.length * (U + 1) + (U - s.seen.length) := by
    intro m U hm hm'
    have : (s.rest.length - m + 1) * (U + 1) ≤ s.rest.length * (U + 1) := Nat.mul_le_mul_right _ (by omega)
    rw [Nat.add_mul] at this
    omega
  unfold pStep
  simp only [hg, hout]
  split
  · next n hsel =>
    have hn : nocrossCandidate t cs cons s = some n := by
      split at hsel
      · split at hsel
        · cases hsel; assumption
        · cases hsel
      · cases hsel; assumption
      · cases hsel
    obtain ⟨h1, h2, h3, -⟩ := nocross_spec h cs cons (primZero t input.length) hn
    rw [if_neg (by omega)]
    right
    refine ⟨_, rfl, ⟨?_, pCand_updateOffsets hdel _, inv.seenSub, inv.seenNodup⟩, ?_⟩
    · exact hstep n h2 h1
    · simp only [pMeasure, List.length_drop]
      have hb := h1.fits.bound
      have := hmeas n.length (primZero t input.length).length h3 (by omega)
      omega
  · split
    · next c hcc =>
      have hm := List.mem_filter.1 (heaviest_mem hcc)
      obtain ⟨h0, hpc⟩ := hc c hm.1
      obtain ⟨env', henv⟩ := applyAll_ok c.effects s.env hpc.eff
      simp only [henv]
      right
      have hd : (if c.length = 0 then s.rest else s.rest.drop c.length) = s.rest.drop c.length := by
        split
        · next h => simp [h]
        · rfl
      have hp : (if c.length = 0 then s.pos else s.pos + c.length) = s.pos + c.length := by
        split
        · next h => simp [h]
        · rfl
      refine ⟨_, rfl, ⟨?_, ?_, ?_, ?_⟩, ?_⟩
      · simp only [hd, hp]
        exact hstep c h0 hpc
      · simp only [hd]
        exact pCand_updateOffsets hdel _
      · show ∀ x ∈ (if c.length = 0 then c.subset :: s.seen else []), x ∈ primZero t input.length
        split
        · next hl =>
          intro x hx
          rcases List.mem_cons.1 hx with rfl | hx
          · exact hpc.zero hl
          · exact inv.seenSub x hx
        · simp
      · show (if c.length = 0 then c.subset :: s.seen else []).Nodup
        split
        · exact List.nodup_cons.2 ⟨by simpa using hm.2, inv.seenNodup⟩
        · simp
      · simp only [pMeasure, hd]
        split
        · next hl =>
          have hnd : (c.subset :: s.seen).Nodup := List.nodup_cons.2 ⟨by simpa using hm.2, inv.seenNodup⟩
          have := nodup_subset_length (u := primZero t input.length) hnd (by
            intro x hx
            rcases List.mem_cons.1 hx with rfl | hx
            · exact hpc.zero hl
            · exact inv.seenSub x hx)
          simp only [List.length_cons, hl, List.drop_zero] at this ⊢
          omega
        · next hl =>
          have hb := hpc.fits.bound
          have := hmeas c.length (primZero t input.length).length (by omega) (by omega)
          simp only [List.length_drop, List.length_nil]
          omega
    · cases hr : s.rest with
      | nil =>
        left
        refine ⟨out, rfl, ?_⟩
        rw [hr, List.append_nil] at hin
        rw [hin]
        exact hcov'
      | cons x rest =>
        right
        obtain ⟨r, hr1, hr2⟩ := plain_ok h x
        simp only [hr1]
        refine ⟨_, rfl, ⟨?_, ?_, inv.seenSub, inv.seenNodup⟩, ?_⟩
        · refine ⟨consumed ++ [x], by rw [hin, hr]; simp, by simp [hpos], ?_⟩
          exact hcov'.append (Covered.single (.inl hr2.symm))
        · have := pCand_updateOffsets hdel 1
          rw [hr] at this
          simpa using this
        · simp only [pMeasure, hr, List.length_cons, Nat.add_mul]
          omega

theorem pLoop_total {ctx d ops} {t : PrimaryTable} (h : PrimOk ctx d ops t) (cs : Case) (cons : Constraints)
    (ind : Nat → List Resolved) (hind : ∀ p, ∀ r ∈ ind p, r.input = []) (input : Text) :
    ∀ (k : Nat) (s : PState), PInv t cs.lower input s → pMeasure (primZero t input.length).length s < k →
      ∃ ts, pLoop t cs cons ind input k s = .ok ts ∧ Covered cs.lower ts input := by
  intro k
  induction k with
  | zero => intro s _ h; omega
  | succ k ih =>
    intro s inv hk
    rcases pStep_spec h cs cons ind hind input inv with ⟨ts, e, hc⟩ | ⟨s', e, inv', hlt⟩
    · exact ⟨ts, by simp [pLoop, e], hc⟩
    · obtain ⟨ts, e', h'⟩ := ih s' inv' (by omega)
      exact ⟨ts, by simp [pLoop, e, e'], h'⟩

theorem pLoop_mono {t : PrimaryTable} {cs : Case} {cons : Constraints} {ind : Nat → List Resolved} {input : Text} :
    ∀ {k : Nat} {s : PState} {ts}, pLoop t cs cons ind input k s = .ok ts → ∀ k', k ≤ k' →
      pLoop t cs cons ind input k' s = .ok ts := by
  intro k
  induction k with
  | zero => intro s ts h; simp [pLoop] at h
  | succ k ih =>
    intro s ts h k' hk
    cases k' with
    | zero => omega
    | succ k' =>
      simp only [pLoop] at h ⊢
      split at h
      · cases h
      · exact h
      · exact ih h k' (by omega)

end Louis
