import Verif.Props.MainMore

/-!
# Properties C10, C23, C39, C48, C49, C51: counterexamples, and the injectivity of escapes

The counterexamples are runs of the model on concrete small tables: they show that the English property is false of the code.
-/

namespace Louis

open Regexp (Fault Compiled findAnchored)

/-! ## C39: the escape of an undefined character -/

theorem digitChar_inj16 : ∀ a b : Fin 16, Nat.digitChar a = Nat.digitChar b → a = b := by decide

theorem hexDigits_inj (m : Nat) : ∀ n, hexDigits m = hexDigits n → m = n := by
  induction m using Nat.strongRecOn with
  | ind m ih =>
    intro n h
    simp only [hexDigits] at h ih
    have hd : ∀ k, Nat.toDigits 16 k = (if k < 16 then [] else Nat.toDigits 16 (k / 16)) ++ [Nat.digitChar (k % 16)] := by
      intro k
      split
      · next hk => rw [Nat.toDigits_of_lt_base hk, Nat.mod_eq_of_lt hk]; rfl
      · next hk => rw [Nat.toDigits_of_base_le (by omega) (by omega)]
    rw [hd m, hd n] at h
    have h1 := List.append_inj_left' h rfl
    have h2 := List.append_inj_right' h rfl
    simp only [List.cons.injEq, and_true] at h2
    have h3 := digitChar_inj16 ⟨m % 16, Nat.mod_lt _ (by omega)⟩ ⟨n % 16, Nat.mod_lt _ (by omega)⟩ h2
    simp only [Fin.mk.injEq] at h3
    split at h1
    · split at h1
      · omega
      · exact absurd h1.symm Nat.toDigits_ne_nil
    · split at h1
      · exact absurd h1 Nat.toDigits_ne_nil
      · have := ih (m / 16) (by omega) (n / 16) h1
        omega

/-- **C39 (escape text).** The escape `\xH…H` determines the character. -/
theorem C39_escape_text_injective (c c' : Char) (h : escapeChar c = escapeChar c') : c = c' := by
  simp only [escapeChar, List.cons.injEq, true_and] at h
  exact Char.toNat_inj.1 (hexDigits_inj _ _ h)

theorem flatMap_single_inj {f : Char → Text} {g : Char → Char} : ∀ {a b : Text}, (∀ x ∈ a, f x = [g x]) →
    (∀ x ∈ b, f x = [g x]) → (∀ x ∈ a, ∀ y ∈ b, g x = g y → x = y) → a.flatMap f = b.flatMap f → a = b
  | [], [], _, _, _, _ => rfl
  | [], y :: b, _, hb, _, h => by simp [List.flatMap_cons, hb y] at h
  | x :: a, [], ha, _, _, h => by simp [List.flatMap_cons, ha x] at h
  | x :: a, y :: b, ha, hb, hi, h => by
    simp only [List.flatMap_cons, ha x (by simp), hb y (by simp), List.singleton_append, List.cons.injEq] at h
    rw [hi x (by simp) y (by simp) h.1,
      flatMap_single_inj (fun z hz => ha z (by simp [hz])) (fun z hz => hb z (by simp [hz]))
        (fun z hz w hw => hi z (by simp [hz]) w (by simp [hw])) h.2]

/-- **C39 (escape cells).** If the table gives each of the characters `0`…`9`, `a`…`f`, `\`, `x` one cell, all of them
different, then the cells of the escape determine the character.  (Missing: with the built-in cells they do not, see
`C39_escape_ambiguous_wrong`.) -/
theorem C39_escape_cells_injective_partial (ctx : PrimCtx) (cell : Char → Char)
    (hcell : ∀ c, ∀ x ∈ escapeChar c, assoc x ctx.defs = some [cell x])
    (hinj : ∀ c c', ∀ x ∈ escapeChar c, ∀ y ∈ escapeChar c', cell x = cell y → x = y)
    (ops : List PrimOp) (hno : lastUndefined ops = none) (c c' : Char)
    (h : unknownDots ctx ops c = unknownDots ctx ops c') : c = c' := by
  simp only [unknownDots, hno] at h
  apply C39_escape_text_injective
  exact flatMap_single_inj (g := cell) (fun x hx => by rw [hcell c x hx]; rfl) (fun x hx => by rw [hcell c' x hx]; rfl)
    (fun x hx y hy => hinj c c' x hx y hy) h

/-- **C39 is false of the code** in a table that does not define the digits: the snowman U+2603 and the sun U+2609 become
the same cells, because the built-in computer braille code gives `3` and `9` the same cell. -/
theorem C39_escape_ambiguous_wrong :
    unknownDots ⟨[], [], [], []⟩ [] '☃' = unknownDots ⟨[], [], [], []⟩ [] '☉' ∧ '☃' ≠ '☉' := by decide

/-! ## Small tables -/

def noCons : Constraints := ⟨fun _ => false, fun _ => false, fun _ => false, fun _ => false, fun _ => false,
  fun _ => false, fun _ => false, fun _ => false⟩

/-- Lowercasing of `A`…`Z` and of nothing else. -/
def asciiLower (c : Char) : List Char := [if 65 ≤ c.toNat ∧ c.toNat ≤ 90 then Char.ofNat (c.toNat + 32) else c]

def ascii : Case := ⟨asciiLower, id, fun c => [c]⟩

def emptyCtx : PrimCtx := ⟨[], [], [], []⟩

def tableOf (ctx : PrimCtx) (d : Direction) (ops : List PrimOp) : PrimaryTable :=
  match PrimaryTable.applyAll ctx ops (PrimaryTable.new d ctx) with
  | .ok t => t
  | .error _ => PrimaryTable.new d ctx

theorem tableOf_built {ctx d ops} (h : ∃ t, PrimaryTable.applyAll ctx ops (PrimaryTable.new d ctx) = .ok t) :
    Built ctx d ops (tableOf ctx d ops) := by
  obtain ⟨t, h⟩ := h
  have inv := buildInv_all (buildInv_new ctx d) h
  simp only [List.nil_append] at inv
  refine ⟨t, h, ?_⟩
  have : tableOf ctx d ops = t := by simp [tableOf, h]
  rw [this]
  refine ⟨⟨?_, fun _ => rfl⟩, ⟨?_, fun _ => rfl⟩, ⟨?_, fun _ => rfl⟩, rfl⟩
  · exact (insertAll_spec inv.trie map_empty).1
  · exact (insertAll_spec inv.comp6 map_empty).1
  · exact (insertAll_spec inv.nocross map_empty).1

def plainRule (chars dots : String) (i : Nat) : TrieRule := ⟨chars.toList, dots.toList, none, none, [], .translation, .main, ⟨.other, i⟩⟩

/-! ## C10 -/

def fooOps : List PrimOp := [.rule false (plainRule "foo" "⠿" 1)]

set_option maxRecDepth 10000 in
/-- **C10 is false of the code** for texts with capitals: with `always foo 123456`, the trace of "FOO" reports the input
"foo". -/
theorem C10_reported_case_wrong : ∃ ts, (tableOf emptyCtx .forward fooOps).Traces ascii noCons (fun _ => []) "FOO".toList ts ∧
    ts.flatMap (·.input) = "foo".toList := ⟨_, ⟨10, rfl⟩, by decide⟩

/-! ## C49 -/

def capSign : Resolved := ⟨[], "⠠".toList, 0, 1, 0, .default, .main, [], none⟩

set_option maxRecDepth 10000 in
/-- **C49 is false of the code**: with `always foo 123456`, an indicator due before the second letter of "fOo" is lost. -/
theorem C49_indicator_lost_wrong : ∃ ts, (tableOf emptyCtx .forward fooOps).Traces ascii noCons
    (fun p => if p = 1 then [capSign] else []) "fOo".toList ts ∧ ts.flatMap (·.output) = "⠿".toList :=
  ⟨_, ⟨10, rfl⟩, by decide⟩

/-! ## C48 -/

def capCtx : PrimCtx := ⟨[], [(.uppercase, 'A')], [], []⟩

/-- `after uppercase always b 12`. -/
def afterCap : TrieRule := ⟨"b".toList, "⠃".toList, none, none, [.start .uppercase], .translation, .main, ⟨.other, 2⟩⟩

set_option maxRecDepth 10000 in
/-- **C48 is false of the code**: with `always a 1` and `after uppercase always b 12` the second rule does not apply to the
`b` of "Ab", although it follows the upper-case letter `A` and the rule applies after `A`: it is checked against the `a` of
the first rule. -/
theorem C48_rule_character_wrong :
    RuleMatches capCtx.trieClasses asciiLower .forward afterCap ['b'] (some 'A') ∧
    ∃ ts, (tableOf capCtx .forward [.rule false (plainRule "a" "⠁" 1), .rule false afterCap, .undefined "⠶".toList]).Traces
      ascii noCons (fun _ => []) "Ab".toList ts ∧ ts.flatMap (·.output) = "⠁⠶".toList := by
  refine ⟨⟨['b'], [], rfl, .cons (by decide) .nil, by simp [afterCap], by simp [afterCap], ?_, by simp [afterCap]⟩, _, ⟨10, rfl⟩, by decide⟩
  intro k hk
  simp only [afterCap, List.mem_singleton, ClassConstraint.start.injEq] at hk
  subst hk
  exact ⟨.uppercase, by simp, by decide⟩

/-! ## C23, C51: `nocross` rules escape the gates -/

def nocrossPrepunc : TrieRule := ⟨"(".toList, "⠷".toList, none, none, [], .default, .main, ⟨.prepunc, 1⟩⟩

set_option maxRecDepth 10000 in
/-- **C23 is false of the code**: a `nocross prepunc` rule is applied although prefix punctuation is not allowed at the
position. -/
theorem C23_nocross_not_gated_wrong : ∃ ts, (tableOf emptyCtx .forward [.rule true nocrossPrepunc]).Traces ascii noCons
    (fun _ => []) "(".toList ts ∧ ts = [Resolved.new "(".toList "⠷".toList 1 .main (some ⟨.prepunc, 1⟩)] ∧
    noCons.prepuncOk 0 = false := ⟨_, ⟨10, rfl⟩, by decide, rfl⟩

set_option maxRecDepth 10000 in
/-- **C51 is false of the code**: a `nocross` contraction is applied inside a computer-braille stretch, and inside a stretch
where contractions are suppressed. -/
theorem C51_nocross_in_computer_braille_wrong :
    ∃ ts, (tableOf emptyCtx .forward [.rule true (plainRule "en" "⠢" 1)]).Traces ascii
      { noCons with useComp6 := fun _ => true, dontContract := fun _ => true } (fun _ => []) "en".toList ts ∧
      ts = [Resolved.new "en".toList "⠢".toList 2 .main (some ⟨.other, 1⟩)] := ⟨_, ⟨10, rfl⟩, by decide⟩

/-! ## The hypotheses of the theorems are met -/

/-- `nocross always en 26`, `prepunc ( 12356`, `comp6 a 1`, `letter e 15`, `always ene 345`. -/
def mixedOps : List PrimOp :=
  [.char 'e' "⠑".toList .default ⟨.other, 1⟩, .rule true (plainRule "en" "⠢" 2),
   .rule false ⟨"(".toList, "⠷".toList, none, none, [], .default, .main, ⟨.prepunc, 3⟩⟩,
   .comp6 (plainRule "a" "⠁" 4), .rule false (plainRule "ene" "⠜" 5)]

theorem mixed_built : Built emptyCtx .forward mixedOps (tableOf emptyCtx .forward mixedOps) :=
  tableOf_built ⟨_, rfl⟩

/-- `C25`, `C23`, `C39`: on "een(a☃" the table applies the `nocross` rule, the gated punctuation, a plain character and two
unknown ones. -/
example : (match pLoop (tableOf emptyCtx .forward mixedOps) ascii { noCons with prepuncOk := fun p => p == 3 } (fun _ => [])
      "een(a☃".toList 20 (PState.init "een(a☃".toList) with
    | .ok ts => some (ts.map (·.origin), ts.flatMap (·.input))
    | .error _ => none) =
    some ([some ⟨.other, 1⟩, some ⟨.other, 2⟩, some ⟨.prepunc, 3⟩, none, none], "een(a☃".toList) := by decide +kernel

/-- The `nocross` rule is the only rule of its line, the punctuation rule is an ordinary rule, and the snowman is unknown. -/
example : (∀ op ∈ mixedOps, op.origin? = some ⟨.other, 2⟩ → ∃ r, op = .rule true r) ∧
    (∀ op ∈ mixedOps, op.origin? = some ⟨.prepunc, 3⟩ → ∃ r, op = .rule false r) ∧
    Unknown .forward mixedOps asciiLower '☃' := by
  refine ⟨?_, ?_, ?_⟩
  · intro op hop h
    simp only [mixedOps, List.mem_cons, List.not_mem_nil, or_false] at hop
    rcases hop with rfl | rfl | rfl | rfl | rfl <;> simp [PrimOp.origin?, plainRule] at h ⊢
  · intro op hop h
    simp only [mixedOps, List.mem_cons, List.not_mem_nil, or_false] at hop
    rcases hop with rfl | rfl | rfl | rfl | rfl <;> simp [PrimOp.origin?, plainRule] at h ⊢
  · constructor
    · intro dots prec o h; simp [mixedOps] at h
    · intro l hl r hr
      have : l = '☃' := by
        have e : asciiLower '☃' = ['☃'] := by decide
        rw [e] at hl; cases hl; rfl
      subst this
      simp only [trieRules, nocrossRules, comp6Rules, mixedOps, List.filterMap] at hr
      rcases hr with hr | hr | hr <;> simp at hr
      · rcases hr with rfl | rfl <;> decide
      · subst hr; decide
      · subst hr; decide
    · intro _ _ _ _ _ h; simp [mixedOps] at h
    · intro _ _ _ h; simp [mixedOps] at h
    · intro _ _ h; simp [mixedOps] at h

end Louis
