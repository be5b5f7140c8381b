# Formal model of louis-rs in Lean 4

## Layout

* `lean/Verif/Model/*.lean`  — the model: one file per area of `/repo/src`, each definition cites file and lines.
* `lean/Verif/Spec/*.lean`   — small specifications in the terms of the English properties; they do not use the helpers
  of the model (only its syntax: rules, patterns, texts).
* `lean/Verif/Lemmas/*.lean` — helper lemmas only.
* `lean/Verif/Props/*.lean`  — the property theorems (names `C<nn>_...`) and, beside each theorem, an `example` showing a
  concrete non-trivial case that meets its hypotheses.
* `lean/Verif/Conform/*.lean` — conformance tests: the unit tests of /repo, transcribed and evaluated on the model by the
  kernel.  They are tests of the *model* (not proofs of properties) and are named after the Rust tests.
* `properties.jsonl` — the English properties.  `MANIFEST.json` — property → theorem map.
* `seeded/LOG.jsonl` — the wrong programs the theorems were tested against; `tools/mutate.py` is the script that does it.

## Modelling conventions

* `String`/`&str` is `List Char` (Lean `Char` and Rust `char` are both Unicode scalar values).  Byte positions appear only
  where the code works with them (captures of the regexp VM, `Model/Regexp.lean`).
* `&mut` becomes a returned value; loops are structural recursion, folds, or recursion on a fuel.  For every fuel there is
  either a theorem that it suffices (C05, C06, C09, C55, …) or the program is modelled as the *relation* "some fuel gives
  this result" (`…Traces`, `Enriches`), so that a Rust loop which does not end is a relation without result (C30).
* A panic is the error value `Fault.panic`; overflow of `usize` is not modelled (lengths and counts are `Nat`), overflow of
  parsed numbers is (`asciiNumber`, `parseInt`, `parseUsize`, `asUsize`).
* `HashMap`/`HashSet` with deterministic observable behaviour are association lists or lists of members.  Where the
  iteration order is observable (children of a trie node), theorems quantify over all orders (`Trie.SameEntries`, C13, C41).
* `char::to_lowercase`, `to_uppercase`, `is_alphabetic` (Unicode tables) are parameters (`Case`, `Sys`); theorems hold for
  every interpretation.  `char::is_whitespace` is the list of `White_Space` code points.
* Rust's `Iterator::max_by_key` returns the *last* maximal element: modelled so.
* A line's file and line number, as far as they appear in a trace, are represented by the number of the rule in the table
  (`Anchored.id`, `anchor`), which are distinct (`anchor_distinct`).
* The file system is three arbitrary functions (`Files`: find, canonicalize, read) and the contents of hyphenation files a
  fourth (`Sys.dic`).

## What is modelled, and what is not

| code | model | not modelled |
|------|-------|--------------|
| translator/regexp.rs | Model/Regexp (all: AST, compilation, VM, bit set, slicing of captures, `negate`) | |
| translator/context_pattern.rs, table/multipass.rs, effect.rs, swap.rs, translation.rs | Model/Types, Model/Multipass | |
| translator/match_pattern.rs | Model/MatchPattern | |
| translator/trie.rs | Model/Trie (insert, find, boundaries, classes, precedence) | the feature-gated non-default precedence |
| translator/table/primary.rs | Model/Primary (trace loop), Model/Compile (compilation), Model/Library (compbrl scanner) | log output |
| translator/position_constraints.rs | Model/Constrain | |
| translator/indication.rs, indication/*.rs | Model/Indicators | the *lazy* interfaces, which no caller uses |
| translator/table.rs, parser/character_class.rs | Model/Table | |
| translator/pipeline.rs, lib.rs | Model/Pipeline, Model/Source | the position maps are modelled but not exposed by lib.rs |
| translator.rs (character definitions, display tables) | Model/Table, Model/Library | |
| hyphenation.rs | Model/Hyphenation | error texts |
| parser.rs, parser/*.rs | Model/Lexer, Model/Operand, Model/RuleParser | kinds and texts of parse errors (only which lines are rejected); operands of opcodes the translator never looks at are parsed but not stored (`Rule.other`) |
| metadata.rs | Model/Library, Model/Search | how the search path is taken from the environment |
| yaml.rs, test.rs (test runner) | Model/Check (see the module header) | reading YAML itself |
| main.rs (command line) | Model/Show (rows of `trace`), Model/Check (`check`, `query`), Model/Cli (`parse`, `translate`, `trace`, sessions) | layout of printed tables, the `{:?}` format, argument parsing, exit codes, files that change during a session |
| `impl Display` of rules, tests, actions, patterns, stages | Model/Show | |
| benches, fuzz | — | everything |

The default features of Cargo.toml are modelled (`backwards_compatibility` on).

## Plan per property (method)

| id | modelled | method |
|----|----------|--------|
| C01, C03–C05 | Regexp AST, emit, add_thread, find_anchored | refinement VM ↔ inductive language / ordered outcomes (Spec/Regexp, Spec/Prefs), induction on AST and input |
| C02 | same | false of the code: counterexample + exact language |
| C06–C08, C15, C19, C20 | MultipassTable::trace, Environment, Swapper | measure (remaining input, unseen rules); invariant on delayed translations; induction over effects |
| C09, C10, C50, C56, C57, C47, C48 | PrimaryTable::trace and compile | invariant over reachable loop states (`PReach`), provenance of every table entry (`Built`, `EntryOf`, `OpOf`) |
| C11, C12, C44 | TranslationPipeline | list lemmas over `Pipeline.compile`; composition by induction over stages |
| C13, C14, C41, C46 | Trie insert/find | refinement to the list of inserted rules (Spec/Trie), for every order of children |
| C14 (lines) | compilation of text lines to trie entries | `Rule.Overrides`, `Rule.SameKind` (Spec/Precedence); the entry that survives the fold of `store`, back to its line by origin |
| C16–C18, C38 | DisplayTable, CharacterDefinition, positions, metadata | induction over rules / trace |
| C21–C23, C25, C30, C40, C51 | position constrainers, scanner | state machines vs declarative specification |
| C12, C25 at lines | words of a line | the line grammar decides the constraints of a rule (`C12_direction_words`, `C25_nocross_words`); `C25_translator` lifts the gate to whole translators |
| C24 | hyphenation | maximum over all pattern occurrences, grammar of files |
| C26–C29, C49 | indication::* | declarative specification of words, runs, phrases (Spec/Capitals, Spec/CapitalSigns: an exact, functional relation); induction over the text |
| C31, C54 | braille cells | bit lemmas, grammar of dots operands |
| C32–C37, C42, C45, C52, C53, C55 | parser, multipass and match patterns | grammars as inductive relations, soundness and completeness; Hoare logic for parsers (`P.Ensures`) |
| C39 | handle_undefined_char | hex-digit round trip; `C39_translator`: stated of the lines of a table and the trace of the compiled translator |
| C43 | TableContext | membership characterised by the rules; `C43_stage`: which classes a stage consults; `C43_names`: which class a name stands for |
| C20 | `TableCtx.compile`, Swapper | `C20_table`: the swap of a table is the one its last `swap…` line of that name says |
| C33 | expandIncludes, is_dic | `C33_dictionary_names`: exactly the names ending in `.dic` are not tables |
| C41 | the whole main stage and translators | `C41_untied`, `C41_translator`: through C73, the next item depends on the order of hash maps only if two different heaviest entries compete; entries without conditions never do (`C41_translator_unconditioned`) |
| C53 | `fromMatchRule`, matching machine | `C53_match_exact`: interpreter `matchReadings` (Spec/Matches) = preferred readings of the compiled expression, by induction over patterns |
| C58–C60 | RuleParser | grammar of a whole line (Spec/Lines) as an inductive relation, equivalence with the parser |
| C61 | PrimaryTable::compile, the builders of indicators and constrainers | every field of every builder as `latest`/`allChars` over the lines (Spec/Config); induction over the two loops |
| C62 | compile + trace | C61 composed with the position constrainers (C21–C24, C30, C40) and the trace invariants (C47, C51, C56) |
| C63 | Model/Check: TestMatrix::check, Test::check as relations | iff between the run relation and a pointwise relation of due runs and verdicts, by induction over suites, tables, tests |
| C64 | Model/Check: the readers of yaml.rs over events | reader combinators characterised by grammars (`ReadsAs`), by induction on events |
| C65 | maskLoop | loop invariant; maximal runs |
| C66 | summarize, checkSummary, checkRows, checkPrinted, shownTrace | induction over the outcomes; stable sort is a sorted permutation |
| C67 | parseQuery, queryCommand | grammar of the argument composed with C38; the panic without `=` is `C67_query_panics_wrong` |
| C68 | PrimaryTable::compile + trace + all indicators | C61 composed with C21, C22, C27 (exact), C28, C29, C30 and the layout C49; specification `TableSigns` over the lines of the table |
| C69 | PrimaryTable::compile + Trie::insert/find + candidate selection in trace | specification `Rule.Fits`/`Rule.conditions` over the lines of the table (Spec/Longest); completeness of the trie from the lines (every allowed line is found where it fits), weight of the stored entries, maximality of the chosen candidate. Two findings stated as counterexamples: repeating a line lowers its weight, a `prepunc` line hides a later line for the same text |
| C70 | `Display` of rules, tests, actions, patterns; print_trace (Model/Show) | what is shown is specified from the words of the line (`Spec/Show`), not from the syntax tree; case analysis over the grammar of lines (`RuleSrc`), induction over the rows; false of the code for the opcodes of `unshownOpcodes`, and classes in patterns are shown ambiguously (counterexamples) |
| C71 | `fromInstr`, `compilePattern`, the matching machine (as C03) | interpreter `readings` (Spec/Passes); `prefs` of the compiled expression = the readings, by induction over the test; `{min,max}` through `asCoded`, whose code is the same; then C03 |
| C72 | `compilePass`, `mpStep`, `mpLoop`, `Pipeline.compile` | invariant: the state of the loop is a function of the items written so far (`Reflects`); uniqueness of runs and C06 for the converse |
| C73 | `PrimaryTable.apply/applyAll`, `gather`, `selectCandidates`, `pStep`, `pLoop`, `Pipeline.compile` | interpreter `MainTable.next` over the items made so far (Spec/MainRun), independent of tries, expressions and loop state; invariant `Mirrors` between loop state and items; flags and signs through C68/C61 (`FlagsOf`, `TableSigns`). Excluded: match lines with a nullable loop under `*`/`+`. |
| C74 | as C56, C69, C10 | forward: every item is what a line says (C56), and the items cover the text (C10); backward: where the braille of a line stands that is used everywhere, something is used (C69), it is what a line says (C56), and unambiguity makes it that line; induction over the pieces |
| C75 | as C73, C68, C61 | the interpreter of C73 on the whole and on the parts: what the dictionaries list before and after the space is the same list (`find_same`), so is what the flags and signs say (numbers, hyphenation, punctuation, capitals, contractions each in a lemma for left of, at and right of the space); then the runs are joined (`run_join`) and by uniqueness of runs are the run of the whole. Excluded: lines that look beyond a space by intent (see `Rule.WithinWords`) |
| C76 | as C73 | `agree_variant`: replacing dictionary entries whose path cannot be followed on a text changes nothing that is found in it, so one listing of the smaller dictionary agrees with a given listing of the larger one on all such texts at once; everything but the dictionaries (signs, classes, definitions, passes) depends only on the other lines; `pLoop_agree` runs the two loops in step; `compile_fewer` shows that the smaller table compiles. False of the code for `always` lines over letters, whose cells become letters (two counterexamples) |
| C77 | as C76 | corollary of `C76_same_lines`, which compares any two tables whose other lines agree and whose lines for each occurring word agree in order; that the order in which cells become letters does not matter is shown by canonical classes (Lemmas/Canon): every list of characters a translator holds can be sorted without changing what it does |
| C78 | the matcher of `Model/Regexp` with a counter (`Model/Cost`), shown to have the same results | potential `2 · (instructions not yet entered at this position)`: every call of add_thread either finds the instruction entered already or enters it; the length of the program is the size of the pattern (`Spec/Size`) |
| C79 | lines, tokens, parsing, includes, `translatorFromSource`, `translatorNew`; edits of the layout as an inductive relation on texts (`Spec/Layout`) | a table is read through the tokens of its rule lines (`Lemmas/Content`); each edit leaves these tokens as they are, by cutting the text into what is before the line, the line, and what is after it; induction over the expansion of includes, forgetting places |
| C80 | the same; pasting lines as an inductive relation (`Spec/Paste`) | induction over the pasting against the declarative expansion of C33 (`ExpandsTo`) |
| C81 | `Model/Cli`: the commands as relations between what they are given and the pieces they write; sessions as a relation over the lines the standard input yields | cases over how the table is read and compiled; induction over the session; uniqueness of traces |
| C82 | the same | `C82_parse_line` against `parseTable` of the line; false of the code for indented comments and lines of blanks, exactly characterised in `C82_remark_partial`, counterexample `C82_indented_comment_wrong` |
| C83 | the lines of a table (`Spec/Output`: what a line gives to be written), from C56 for the main stage and C72 for the passes | `C83_written_from_lines`, `C83_only_cells`, `C83_braille_block`; false without the hypothesis on copying `context` lines (`C83_copying_wrong`) |
| C84 | the lines of a table used in backward direction (`Spec/OutputBack`: what a line gives to be read back), from C56 for the main stage and C72 for `correct` | `C84_read_from_lines`, `C84_letters_and_signs`; false without the hypothesis on copying `context` lines (`C84_copying_wrong`) |
| C85 | the lines of the table (`Spec/Letters`: what the table says, how characters are spelt, which are upper-case), from C73 (the exact run of the main stage), C61 (its signs) and the reading of capital signs in braille | `C85_written`, `C85_round_trip`, `C85_source`; a decidable check for tables with a worked example; false without the hypotheses on the cell of the sign and on the order (`C85_sign_inside_wrong`, `C85_order_wrong`) |
| C86 | the same lines with `litdigit` and `numsign` (`Spec/Letters`: `spelledOut`), from C73, C21 (where number signs stand) and C61 | `C86_written`, `C86_source`, a decidable check with a worked example for every text in its characters; that the result is read back is false in general: `C86_after_letter_wrong`, `C86_after_number_wrong`, `C86_order_wrong` |
| C87 | the same lines; the reading of capital signs and digits in braille (C73 backward) | `C87_round_trip`, `C87_source` for `ReadableBack` tables with a number sign; `checkLetters` decides the hypothesis; worked example for every text in its characters; digits with the cells of letters are excluded (`apart` and `unambiguous`; C86's counterexamples) |
| C88 | as C87; the number sign's reading (C40 backward) of the whole text is given explicitly (`withLeads_fine`, `digitCell_iff`): a cell is in a number exactly where a digit was written | `C88_main_backward`, `C88_round_trip`, `C88_source` for `ReadableNumbers` tables (Spec/Letters) and texts with `NumbersApart`; `checkNumbers` decides the hypothesis on the table; worked example for every text in the example's characters in which no digit follows a letter and no `a`, `b` a digit; C86's counterexamples show that both conditions on the text and the one on the order of lines are needed |

Where a property is false of the code, the theorem with the suffix `_wrong` proves a concrete counterexample (a finding) and
the theorems with the suffix `_partial` prove the part that holds; the claim is then `partial` in MANIFEST.json.

## Trusted base

Lean 4.33.0's kernel; the axioms `propext`, `Classical.choice`, `Quot.sound` at most (no theorem uses another one: see
`tools/axioms.sh`, which prints the axioms of every theorem named in MANIFEST.json); the faithfulness of the model to the
Rust source, established by reading, and tested by transcribing the 231 unit tests of /repo into `lean/Verif/Conform` (the
model gives the asserted result in every one of them but `empty_returns_false`, which is about a value the model has no use for; where a test asserts a particular kind of parse error, the model is only
asked to reject); the parameters listed above.  One deviation is known: `indication/emphasis.rs`
sorts its signs with `sort_by` and a comparison that is no total order (an opener and a closer at one position compare equal,
two openers do not, see `C29_nesting_wrong`).  The model uses a stable insertion sort (`stableSort`), which every stable sort
agrees with on at most 20 elements (Rust uses insertion sort there); for longer lists Rust >= 1.81 may give another order
or panic, which the model does not show (C09, C29).  Concrete examples are evaluated by the kernel
(`decide +kernel`, `rfl`), not by compiled code.
