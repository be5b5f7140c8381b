{"id": "C01", "title": "Pattern matching decides the pattern's language", "statement": "For every pattern built from literals, concatenation, alternation, ?, *, +, exact and at-least repetitions, classes, (case-insensitive) strings, variable tests, anchors, groups and captures, compiling it and running the matcher on a text succeeds exactly when some prefix of that text is in the pattern's language (under the given variable environment and start-of-string flag).", "quantifier": "all patterns (any size and nesting, including loops over nullable bodies), all texts, all variable environments, both values of the start flag", "why_tests_cant": "The pattern and text space is infinite; the interesting failures are in nested loops over empty matches and in jump-target patching, which depend on the shape of the whole pattern.", "anchors": ["src/translator/regexp.rs: Regexp::emit, CompiledRegexp::add_thread, CompiledRegexp::find_anchored"]}
{"id": "C02", "title": "A bounded range quantifier accepts between min and max repetitions", "statement": "A pattern `x{min,max}` (in table syntax `%class min-max`) matches a text of k copies of x followed by something that is not x iff min <= k, and consumes at most max copies.", "quantifier": "all min < max, all bodies, all texts", "why_tests_cant": "Each test fixes one min/max pair and a few texts; the error only shows for particular residues of the count.", "anchors": ["src/translator/regexp.rs: Regexp::emit (RepeatAtLeastAtMost)", "src/translator/context_pattern.rs: from_instruction"]}
{"id": "C03", "title": "Pattern preference is leftmost-first", "statement": "When several prefixes of the text match, the prefix that is consumed is the one of the first alternative in preference order (left alternative before right, one more iteration before leaving a loop), as in a backtracking matcher.", "quantifier": "all patterns, texts, environments", "why_tests_cant": "Priority bugs depend on the interleaving of the threads over all input positions.", "anchors": ["src/translator/regexp.rs: CompiledRegexp::find_anchored, add_thread"]}
{"id": "C04", "title": "Captured text is a slice of the matched prefix; matching never panics", "statement": "Whenever a pattern matches, the captured span lies inside the consumed prefix, starts no later than it ends and falls on character boundaries, so slicing the input cannot panic; the reported offset is the number of characters before the captured text; and a pattern that contains no capture reports the empty capture at offset 0.", "quantifier": "all patterns (captures anywhere, including in loops and alternatives), all texts including multi-byte ones", "why_tests_cant": "A slice panic shows only for particular combinations of capture nesting and multi-byte input.", "anchors": ["src/translator/regexp.rs: find_anchored (Instruction::CaptureStart / CaptureEnd, &input[start..end])", "src/translator/translation.rs: UnresolvedTranslation::resolve"]}
{"id": "C05", "title": "Epsilon cycles cannot hang the pattern matcher", "statement": "Matching terminates for every compiled pattern: in one step no instruction is visited twice, and the number of steps is at most the length of the text plus one, so a pattern such as (a*)*, (|)* or nested + over empty bodies cannot hang the translator.", "quantifier": "all patterns, all texts", "why_tests_cant": "Non-termination cannot be observed by a finite test for all patterns.", "anchors": ["src/translator/regexp.rs: add_thread (seen), Bitset, find_anchored"]}
{"id": "C06", "title": "Multipass translation terminates", "statement": "Every correct/context/pass2/pass3/pass4 stage terminates on every input, including with rules that consume no characters and with rules that set variables.", "quantifier": "all rule sets, all inputs, all variable assignments", "why_tests_cant": "Zero-width rules may re-enable themselves via variables; termination rests on a global argument over (position, fired rules).", "anchors": ["src/translator/table/multipass.rs: MultipassTable::trace (seen)"]}
{"id": "C07", "title": "Multipass translation consumes the input exactly once, left to right", "statement": "In every multipass stage the inputs reported by the trace, concatenated in order, are the input text: no character is lost, duplicated or reordered, even with context rules whose replaced text lies some characters ahead.", "quantifier": "all rule sets, all inputs", "why_tests_cant": "Delayed (offset) translations interleave with others at arbitrary distances.", "anchors": ["src/translator/table/multipass.rs: MultipassTable::trace, update_offsets, partition_delayed_translations"]}
{"id": "C08", "title": "A zero-width multipass rule is tried afresh at every position", "statement": "Whether a multipass rule that consumes nothing applies at a position depends only on the text and variables at that position, not on whether it already applied at an earlier position.", "quantifier": "all rule sets and inputs", "why_tests_cant": "Depends on the history of positions since the last consuming rule.", "anchors": ["src/translator/table/multipass.rs: MultipassTable::trace (seen)"]}
{"id": "C09", "title": "Primary translation terminates", "statement": "The main translation stage terminates for every table and every input text, every typeform span and every option value.", "quantifier": "all tables, inputs, options", "why_tests_cant": "Non-termination needs a particular combination of triggers and whitespace, or zero-width rules.", "anchors": ["src/translator/table/primary.rs: PrimaryTable::trace, CompbrlScanner::enrich"]}
{"id": "C10", "title": "Primary translation consumes the input exactly once, left to right", "statement": "In the main stage the inputs reported by the trace, concatenated in order, are exactly the input text (indicators contribute the empty input); every character of the text is accounted for by exactly one translation.", "quantifier": "all tables, inputs, options", "why_tests_cant": "Interaction of indicators, constraints, nocross candidates, delayed context rules and fall-through characters.", "anchors": ["src/translator/table/primary.rs: PrimaryTable::trace"]}
{"id": "C11", "title": "translate is the composition of the stages", "statement": "Translating a text is the composition of the stages present in the table: correct, then the main stage, then pass2, pass3, pass4 (in the reverse order for backward translation); each stage reads the previous stage's output; absent stages are skipped; and the concatenated outputs of the last stage of the trace are the translation.", "quantifier": "all tables, both directions, all inputs", "why_tests_cant": "Holds for each subset of stages and each text.", "anchors": ["src/translator/pipeline.rs: TranslationPipeline::compile, translate_with_options, trace"]}
{"id": "C12", "title": "noback/nofor rules only take part in their own direction", "statement": "A rule marked noback never takes part in backward translation, a rule marked nofor never takes part in forward translation, and unmarked rules take part in both: compiling the table with all rules for a direction gives the same stages as compiling only the rules allowed in it.", "quantifier": "all rule lists, both directions", "why_tests_cant": "Quantifies over all rule lists.", "anchors": ["src/parser.rs: Rule::directions, Rule::is_direction", "src/translator/pipeline.rs: TranslationPipeline::compile"]}
{"id": "C13", "title": "The translation dictionary finds exactly the rules that match here", "statement": "Looking up the text at a position returns the translation of a rule exactly when the rule's characters match the text case-insensitively (by lowercasing the text) at that position and the rule's boundary and class conditions hold for the characters before and after.", "quantifier": "all rule sets, all texts, all previous characters", "why_tests_cant": "The dictionary is a trie with boundary transitions; wrong sharing of a node shows only for particular rule sets.", "anchors": ["src/translator/trie.rs: Trie::insert, Trie::find, find_internal"]}
{"id": "C14", "title": "Among duplicate rules the first one in the table wins", "statement": "When two rules have the same opcode class, the same characters and the same boundary conditions, the translation of the first one in the table is used.", "quantifier": "all rule lists", "why_tests_cant": "Depends on the order and precedence of all rules sharing a node.", "anchors": ["src/translator/trie.rs: Trie::insert", "src/parser.rs: Rule::precedence", "src/translator/translation.rs: ResolvedTranslation::new"]}
{"id": "C15", "title": "The heaviest candidate wins", "statement": "At each position the translation applied is a candidate of maximal weight (number of characters plus boundaries matched); in particular a longer rule beats a shorter one with the same kind of boundaries.", "quantifier": "all candidate sets", "why_tests_cant": "Ranges over all candidate sets.", "anchors": ["src/translator/table/primary.rs: PrimaryTable::trace (max_by_key)", "src/translator/table/multipass.rs: trace"]}
{"id": "C16", "title": "Display table mapping is per-character and total", "statement": "Applying a display table maps each character independently, leaves unmapped characters unchanged, preserves the number of characters, and uses the first display rule in the table that applies to a character.", "quantifier": "all display rule lists and all texts", "why_tests_cant": "Ranges over all rule lists and texts.", "anchors": ["src/translator.rs: DisplayTable::compile, DisplayTable::translate"]}
{"id": "C17", "title": "Character definitions: the first definition wins and later ones do not disturb it", "statement": "The dots of a character are those of its first definition in the table; adding rules after it never changes them; `=` translations are defined exactly when every character of the rule has a definition and are then the concatenation of their dots.", "quantifier": "all rule lists", "why_tests_cant": "Ranges over all sequences of definitions.", "anchors": ["src/translator.rs: CharacterDefinition::insert, resolve_implicit_dots"]}
{"id": "C18", "title": "Position maps are in range, monotone and of the right length", "statement": "The input-to-output and output-to-input position maps computed from a trace have one entry per input (resp. output) character, every entry is a valid index of the other text when that text is not empty, and both maps are non-decreasing.", "quantifier": "all traces (any number of translations with any input and output lengths, including zero)", "why_tests_cant": "Zero-length inputs or outputs cause off-by-one errors only in particular sequences.", "anchors": ["src/lib.rs: compute_output_positions, compute_input_positions"]}
{"id": "C19", "title": "Multipass variables behave like a map", "statement": "After any sequence of variable effects the value of a variable is determined by the last assignment to it and the increments/decrements since; other variables are untouched; a decrement never goes below zero.", "quantifier": "all effect sequences, all variables", "why_tests_cant": "Ranges over all histories.", "anchors": ["src/translator/effect.rs: Environment::apply"]}
{"id": "C20", "title": "Swapping is per-character substitution", "statement": "A swap replaces each character in its class by its counterpart and leaves every other character unchanged; the result for a concatenation is the concatenation of the results.", "quantifier": "all swap classes, all texts", "why_tests_cant": "Ranges over all texts.", "anchors": ["src/translator/swap.rs: Swapper::swap"]}
{"id": "C21", "title": "A number sign is emitted exactly once per number", "statement": "The number indicator is emitted exactly at those digits at which a new number starts: a digit that does not continue a number (digits joined by the table's numeric-mode characters); the numeric-mode position constraint used by translation agrees at every position with the indicator's own notion of numeric mode.", "quantifier": "all texts, all sets of numeric-mode and terminating characters", "why_tests_cant": "A state machine over arbitrarily long texts.", "anchors": ["src/translator/indication/numeric.rs: precompute", "src/translator/position_constraints.rs: NumericConstrainer"]}
{"id": "C22", "title": "User spans never crash the translator", "statement": "Arbitrary typeform / computer-braille / no-contract spans (empty, reversed, overlapping or beyond the end of the text) never cause an out-of-bounds access, and mark exactly the positions of the text covered by some span.", "quantifier": "all texts, all lists of spans with arbitrary endpoints", "why_tests_cant": "Span endpoints are arbitrary numbers.", "anchors": ["src/translator/position_constraints.rs: ComputerBrailleConstrainer", "src/translator/indication/computer_braille.rs", "src/translator/indication/emphasis.rs"]}
{"id": "C23", "title": "Punctuation gating looks at the surrounding word", "statement": "A prefix-punctuation rule may apply at a position iff the character directly before it is not a letter and, going right from it, a letter or digit is reached before any space; a postfix-punctuation rule iff the mirror image holds.", "quantifier": "all texts, positions and character classes", "why_tests_cant": "The scan is unbounded in both directions.", "anchors": ["src/translator/position_constraints.rs: PunctuationConstrainer"]}
{"id": "C24", "title": "Hyphenation points respect the minimum margins", "statement": "The hyphenator reports one flag per inter-letter gap of the word, never reports a break closer to the start than left_min or to the end than right_min, and otherwise reports a break exactly when the maximal score any matching pattern assigns to the gap is odd.", "quantifier": "all pattern sets, all words, all margins", "why_tests_cant": "Ranges over all words and pattern sets.", "anchors": ["src/hyphenation.rs: Hyphenator::break_points, parse_pattern"]}
{"id": "C25", "title": "nocross rules never span a hyphenation point", "statement": "A rule marked nocross is never applied to a stretch of text that has a hyphenation point strictly inside it.", "quantifier": "all tables and texts", "why_tests_cant": "Depends on the interplay of hyphenation and candidate selection.", "anchors": ["src/translator/table/primary.rs: PrimaryTable::trace (nocross)", "src/translator/position_constraints.rs: HyphenationConstrainer"]}
{"id": "C26", "title": "Runs found for indicators are exactly the maximal runs", "statement": "The spans used to place indicators are non-empty, disjoint, in order, maximal, contain only matching characters and cover every matching character.", "quantifier": "all texts, all predicates", "why_tests_cant": "Ranges over all texts.", "anchors": ["src/translator/indication.rs: find_spans"]}
{"id": "C27", "title": "Capital indicators: every upper-case letter is indicated, in balanced pairs", "statement": "Every upper-case run of a text is announced by exactly one indicator (letter, word or phrase), indicators only appear at word or run borders and word/phrase terminators only follow their openers; every reported position is within the text.", "quantifier": "all texts, all combinations of defined indicators", "why_tests_cant": "Ranges over all texts and tables.", "anchors": ["src/translator/indication/uppercase.rs"]}
{"id": "C28", "title": "Letter signs are placed only before isolated letters or contractions and are suppressible", "statement": "A letter sign is only ever placed at a letter that is isolated (or at the start of a word that would be read as a contraction); it is never placed at a character listed in noletsign nor next to characters listed in noletsignbefore / noletsignafter.", "quantifier": "all texts and tables", "why_tests_cant": "Ranges over all texts.", "anchors": ["src/translator/indication/lettersign.rs"]}
{"id": "C29", "title": "Emphasis indicators stay inside the text and nest", "statement": "For any typeform spans every emphasis indicator position is at most the text length, and openers and closers of one class alternate.", "quantifier": "all texts and spans", "why_tests_cant": "Span endpoints are arbitrary.", "anchors": ["src/translator/indication/emphasis.rs"]}
{"id": "C30", "title": "Computer braille triggers affect whole words", "statement": "With compbrl triggers, the computer-braille spans given to the translator are the user's spans plus, for every occurrence of a trigger, the whitespace-delimited word containing it; computing them terminates for every text and every set of triggers.", "quantifier": "all trigger sets, texts", "why_tests_cant": "Non-termination needs particular triggers.", "anchors": ["src/translator/table/primary.rs: CompbrlScanner::enrich"]}
{"id": "C31", "title": "Dot patterns map injectively to Unicode", "statement": "The Unicode character of a cell determines the set of its dots (dot 0 aside); cells with dots 1-8 map to the braille block U+2800..U+28FF, cells with a virtual dot to the private-use range, so no conversion to a character can fail.", "quantifier": "all sets of the sixteen dots", "why_tests_cant": "65536 cells, and the statement is about sets written in any order with repetitions.", "anchors": ["src/parser/braille.rs: BrailleChar::to_unicode, to_hex"]}
{"id": "C32", "title": "Parsing a table is all-or-nothing with exact line numbers", "statement": "Parsing succeeds iff every non-blank, non-comment line parses, then yields the rules in line order; otherwise it reports exactly the failing lines, each with its 1-based line number, in order.", "quantifier": "all table texts", "why_tests_cant": "Ranges over all texts.", "anchors": ["src/parser.rs: table, TableLines"]}
{"id": "C33", "title": "Include expansion terminates, detects cycles, and preserves order", "statement": "Expanding includes terminates for every file system content, reports an error for every circular include and for nesting deeper than the limit, allows including the same file twice through different branches, and yields the rules in the order of textual inclusion.", "quantifier": "all file systems (any include graph)", "why_tests_cant": "Ranges over all include graphs.", "anchors": ["src/parser.rs: table_expanded_with, expand_include, expand_includes"]}
{"id": "C34", "title": "In-memory tables with includes are rejected", "statement": "Creating a translator from a table source that contains any include fails; without includes it behaves like a table file with the same contents.", "quantifier": "all table sources", "why_tests_cant": "Ranges over all sources.", "anchors": ["src/lib.rs: Translator::from_table_source"]}
{"id": "C35", "title": "Escape sequences are decoded exactly", "statement": "Text without a backslash is unchanged by unescaping; every backslash-escaped character or \\xHHHH escape decodes to the character it denotes; decoding is a left-to-right homomorphism.", "quantifier": "all texts", "why_tests_cant": "Ranges over all texts.", "anchors": ["src/parser.rs: unescape, unescape_unicode"]}
{"id": "C36", "title": "Variable increment and decrement actions are accepted", "statement": "The documented multipass actions #n+ and #n- parse and change the variable by one.", "quantifier": "all variable numbers", "why_tests_cant": "A test can only show specific numbers; here the claim is a universal negative about the code.", "anchors": ["src/parser/multipass/action.rs: variable"]}
{"id": "C37", "title": "Negated patterns are handled without panicking", "statement": "Every pattern the match-rule parser accepts can be compiled without a panic, and negating a single-character pattern accepts exactly the characters the pattern rejects.", "quantifier": "all accepted patterns", "why_tests_cant": "Ranges over all patterns.", "anchors": ["src/translator/match_pattern.rs", "src/translator/regexp.rs: Regexp::negate", "src/parser/match_rule.rs"]}
{"id": "C38", "title": "Table search returns exactly the tables satisfying every query key", "statement": "Searching tables by metadata returns exactly the tables that carry every key/value of the query.", "quantifier": "all indices and queries, including the empty query", "why_tests_cant": "Ranges over all queries.", "anchors": ["src/metadata.rs: find"]}
{"id": "C39", "title": "Undefined characters are never dropped silently", "statement": "A character without any definition or rule is translated to the table's undefined replacement if there is one and otherwise to the cells of its hexadecimal escape; the escape determines the character.", "quantifier": "all characters and tables", "why_tests_cant": "Ranges over all characters.", "anchors": ["src/translator/table/primary.rs: handle_undefined_char", "src/parser/braille.rs: fallback"]}
{"id": "C40", "title": "Backward capital and number indicators switch modes over the right stretch", "statement": "In backward translation a number sign that is not preceded by a letter cell turns exactly the following digit cells into digits, and a word-capital indicator capitalises exactly the following letter cells up to its terminator or the first non-letter cell.", "quantifier": "all braille texts and tables", "why_tests_cant": "A state machine over arbitrary texts.", "anchors": ["src/translator/position_constraints.rs: BackwardCapsConstrainer, BackwardNumericConstrainer"]}
{"id": "C41", "title": "Translation is deterministic", "statement": "Translating the same text with the same table always gives the same result, in every process: no observable output depends on the (randomised) iteration order of hash maps.", "quantifier": "all tables, texts and hash-map iteration orders", "why_tests_cant": "A test process sees one or a few random hash seeds; the property ranges over all iteration orders.", "anchors": ["src/translator/trie.rs: TrieNode::find_translations, Trie::find", "src/translator/table/primary.rs: trace (max_by_key)"]}
{"id": "C42", "title": "Every table that parses can be compiled", "statement": "Compiling a table whose every line was accepted by the parser either yields a translator or a reported error, never a panic.", "quantifier": "all tables accepted by the parser", "why_tests_cant": "The set of accepted tables is infinite; every combination of instructions, negations and quantifiers must compile.", "anchors": ["src/translator/context_pattern.rs: Regexp::from_instruction", "src/translator/match_pattern.rs: Regexp::from_patterns", "src/translator/regexp.rs: Regexp::negate"]}
{"id": "C43", "title": "Swap and user classes are usable as tests in every stage", "statement": "A class defined in the table (swapcc, swapcd, swapdd, attribute) and tested with %name in a multipass rule matches exactly the members that the class has in the alphabet of that stage (characters before, cells after the main stage).", "quantifier": "all tables, class definitions, stages and texts", "why_tests_cant": "Ranges over all class definitions and stages.", "anchors": ["src/translator/table.rs: TableContext::compile", "src/translator/context_pattern.rs: ContextPatternsBuilder::insert"]}
{"id": "C44", "title": "Typeform spans refer to the caller's text", "statement": "A typeform, computer-braille or no-contract span given with a translation affects the translation of exactly the characters of the caller's text it covers, also when correct rules change the length of the text before the main stage.", "quantifier": "all tables with correct rules, all texts and spans", "why_tests_cant": "Ranges over all length-changing correct rules and all spans.", "anchors": ["src/translator/pipeline.rs: TranslationPipeline::trace_with_options", "src/translator/table/primary.rs: trace"]}
{"id": "C45", "title": "A variable test and its negation are complementary", "statement": "For every variable and value, at every point of a translation exactly one of the tests #n=v and !#n=v succeeds.", "quantifier": "all variables, values, histories of assignments", "why_tests_cant": "The set of reachable variable environments is unbounded; the unset state is easily missed by tests that assign first.", "anchors": ["src/translator/regexp.rs: Instruction::VariableEqual, Instruction::NotVariableEqual", "src/translator/effect.rs: Environment::get"]}
{"id": "C46", "title": "A rule applies to its own characters", "statement": "An unconditional translation rule (always) applies to every text that starts with the characters written in the rule, in particular when they contain upper-case letters.", "quantifier": "all rules and texts", "why_tests_cant": "Ranges over all characters, including those whose lowercase differs from themselves or has several characters.", "anchors": ["src/translator/trie.rs: TrieNode::char_transition, Trie::insert"]}
{"id": "C47", "title": "A class condition is never ignored", "statement": "A rule restricted with before/after CLASS never applies where the neighbouring character is not in that class, whether or not the class is defined.", "quantifier": "all tables, class names and texts", "why_tests_cant": "Ranges over all class names, including those that are predefined but not recognised by name.", "anchors": ["src/translator/table/primary.rs: resolve_class_constraints", "src/parser/character_class.rs: CharacterClass::from"]}
{"id": "C48", "title": "Conditions look at the text before the position", "statement": "A rule's boundary or class condition on the preceding character is evaluated on the character that actually precedes the position in the text (including its case).", "quantifier": "all tables, texts and positions", "why_tests_cant": "the preceding character depends on the whole history of rules applied before the position", "anchors": ["src/translator/table/primary.rs: PrimaryTable::trace", "src/translator/trie.rs: Trie::find_translations"]}
{"id": "C49", "title": "Every indicator is emitted exactly once at its position", "statement": "Every indicator (number sign, capital sign, letter sign, emphasis, computer braille, no-contract) that is due at a position of the text is emitted exactly once, before the translation of the text at that position.", "quantifier": "all tables, texts, indicators and positions", "why_tests_cant": "whether a position is reached depends on which contractions were applied before it", "anchors": ["src/translator/table/primary.rs: PrimaryTable::trace", "src/translator/indication.rs: Indications::translations_at"]}
{"id": "C50", "title": "A longer text is translated position by position", "statement": "At every round of the main stage exactly one translation is emitted and the text advances by exactly the number of characters that translation covers.", "quantifier": "all tables, texts and rounds of the loop", "why_tests_cant": "quantifies over all reachable states of the loop", "anchors": ["src/translator/table/primary.rs: PrimaryTable::trace"]}
{"id": "C51", "title": "Computer braille and no-contract stretches suppress ordinary contractions", "statement": "Inside a computer-braille stretch only comp6 rules and character definitions are used; inside a stretch where contractions are suppressed no rule covers more than one character.", "quantifier": "all tables (including nocross rules), texts, stretches and positions", "why_tests_cant": "must hold for every combination of rules and stretches", "anchors": ["src/translator/table/primary.rs: PrimaryTable::trace"]}
{"id": "C52", "title": "A multipass rule means what its test and action say", "statement": "A correct, context or pass2-4 rule matches at a position iff the text there reads as its test says (literal characters, dots, class attributes, swap classes, lookbehind, anchors, repetition counts, negation, in this order, with the variables tested), and its replacement is what its action says: literals, the bracketed text copied or swapped, or nothing, with the variable updates in order.", "quantifier": "all tests, actions, texts, positions and variable environments", "why_tests_cant": "Tests and actions combine freely and the texts are unbounded.", "anchors": ["src/translator/context_pattern.rs", "src/translator/effect.rs", "src/parser/multipass/test.rs", "src/parser/multipass/action.rs"]}
{"id": "C53", "title": "A match rule means what its patterns say", "statement": "A match rule applies at a position iff its characters are there (ignoring case), the text before ends with a string its pre-pattern describes and the text after starts with one its post-pattern describes, where a pattern describes strings by characters, sets, attributes, any, alternatives, negation of a single character and the quantifiers ?, * and +.", "quantifier": "all patterns, texts and positions", "why_tests_cant": "Patterns nest without bound and the texts are unbounded.", "anchors": ["src/parser/match_rule.rs", "src/translator/match_pattern.rs"]}
{"id": "C54", "title": "A dots operand denotes exactly the cells written in it", "statement": "A dots operand d1-d2-... denotes the sequence of cells whose raised dots are exactly the digits and letters a-f written in each group, one cell per group.", "quantifier": "all dots operands", "why_tests_cant": "The operands are unbounded sequences over 2^15 cells.", "anchors": ["src/parser/braille.rs"]}
{"id": "C55", "title": "The operand parsers accept exactly the documented grammar", "statement": "Parsing the test, action or match-pattern operand of a rule always terminates with either the unique syntax tree the grammar assigns to the text or an error, and it gives an error only if the text is not in the grammar; the whole operand is consumed.", "quantifier": "all operand texts", "why_tests_cant": "The operands are unbounded and nested recursively; only an induction over the grammar shows that every accepted text has the right tree and every sentence of the grammar is accepted.", "anchors": ["src/parser/multipass/test.rs", "src/parser/multipass/action.rs", "src/parser/match_rule.rs"]}
{"id": "C56", "title": "Everything the main stage writes is explained by the table", "statement": "Every piece of the main stage's output is accounted for: it is a sign the table defines, or the braille (backward: the characters) of a table rule whose characters (backward: cells) are what the text reads at that place and whose opcode and class conditions admit the neighbouring characters, or written by a match or context rule, or it is what the table prescribes for characters it does not define (and then it really does not define the character).", "quantifier": "all tables, directions, texts, typeform spans and positions", "why_tests_cant": "Ranges over all tables and texts; a wrong boundary condition, a wrong neighbour or a stale candidate shows only for particular combinations.", "anchors": ["src/translator/table/primary.rs: PrimaryTable::trace, PrimaryTableBuilder", "src/translator/trie.rs: Trie::find", "src/lib.rs: Translator::trace"]}
{"id": "C57", "title": "A rule is used only where its opcode admits it", "statement": "A piece that refers to a line of the table (always, word, begword, midword, endword, partword, midendword, begmidword, prfword, sufword, contraction, joinword, lowword, begnum, midnum, endnum, ...) stands where that opcode admits it, its text is the characters of that line and its braille that of that line.", "quantifier": "all tables with these rules, all texts, all positions", "why_tests_cant": "Ranges over all neighbours of a rule in all texts and over all other rules of the table that share entries with it.", "anchors": ["src/translator/table/primary.rs: PrimaryTableBuilder (second loop)", "src/translator/trie.rs: Trie::insert, Trie::find"]}
{"id": "C58", "title": "A table line stands for exactly the rule it spells", "statement": "A line of a table is accepted exactly when its words are: optionally nofor or noback, optionally nocross, any number of before CLASS / after CLASS, any number of empmatchbefore/empmatchafter, one of the known opcodes, its operands each of the documented kind and in the documented order, then anything. The accepted line yields the rule with that opcode, those constraints and the decoded operands, and only opcodes that allow a constraint accept it.", "quantifier": "every line of text, all opcodes, all operands", "why_tests_cant": "There are over a hundred opcodes with unbounded operands; unit tests parse a few example lines each.", "anchors": ["src/parser.rs: RuleParser::rule, constraints, with_classes, with_matches, opcode, fail_if_invalid_constraints"]}
{"id": "C59", "title": "Comments after the operands never change a rule", "statement": "If a line is accepted, then appending further words to it gives a line that is accepted and stands for the same rule.", "quantifier": "every accepted line, every list of further words", "why_tests_cant": "The rest of the line is arbitrary text.", "anchors": ["src/parser.rs: RuleParser::rule"]}
{"id": "C60", "title": "before/after conditions on a line are part of its rule", "statement": "When a line is accepted with before CLASS or after CLASS in front of its opcode, the rule it stands for has these conditions. (Holds for the opcodes of words and parts of words; all other opcodes accept the conditions and silently drop them.)", "quantifier": "every accepted line", "why_tests_cant": "It relates all opcodes and all lists of conditions.", "anchors": ["src/parser.rs: RuleParser::rule, with_classes"]}
{"id": "C61", "title": "Every sign and setting of a table is the one its lines give", "statement": "In a translator made from a table, the sign of every kind (capitals, numbers, emphasis classes, computer braille, letter sign, no-contraction sign), the phrase lengths and the sets of characters are those of the lines: of a sign, a length or a set that replaces, the last line counts; sets that accumulate have the characters of all lines; in backward direction a sign whose dots are those of a letter is not recognised.", "quantifier": "every table (list of rules) that compiles, both directions", "why_tests_cant": "It is about all orders and repetitions of all opcodes.", "anchors": ["src/translator/table/primary.rs: PrimaryTable::compile", "src/translator/indication/*.rs: IndicatorBuilder", "src/translator/position_constraints.rs: builders"]}
{"id": "C62", "title": "Computer braille, numbers, hyphenation and punctuation decide which rules are used where", "statement": "Whatever is written for text in computer braille (a span of the caller, or a word with a compbrl text) is what a comp6 line or a character line says, and comp6 lines are used nowhere else; inside numbers nothing is contracted; a nocross rule never stands across a hyphenation point of the table included last; prepunc and postpunc lines are used only before and after a word; backward, capitals only change the case of what the table would write without them, and a cell read as a digit becomes the digit of the last digit line.", "quantifier": "every table that compiles, every text, every list of spans, every position", "why_tests_cant": "It relates every table to every text and every span.", "anchors": ["src/translator/table/primary.rs: PrimaryTable::trace, compile", "src/translator/position_constraints.rs"]}
{"id": "C63", "title": "A test file yields one verdict per direction, table and test", "statement": "`louis check` on a file answers, if every table and display table it needs can be read and compiled, with exactly one result for each suite, direction (forward; backward; forward then backward with input and expected exchanged), table and test, in this order: Success or UnexpectedSuccess iff the translation, shown with the display table, equals the expected text, the latter iff the test is marked xfail for this direction; otherwise ExpectedFailure or Failure with the actual text. An error is that of a table of the file. Table files and inline tables are those a Translator would be made from.", "quantifier": "every list of suites (tables, display tables, modes, tests, xfail marks), every file system, both settings of LOUIS_TEST_FORWARD_ONLY", "why_tests_cant": "The test runner is what the tests rest on; it ranges over all suites.", "anchors": ["src/test.rs: TestMatrix::check, Test::check, reverse, ExpectedFailure::is_failure", "src/yaml.rs: YAMLParser::yaml"]}
{"id": "C64", "title": "A test file means what its entries say", "statement": "A YAML test file is accepted iff its events follow the documented form; its suites are the `tests` entries, each with the display table, the tables (those of the last entries with tables that follow one another) and the mode in force there, each test with its input, expected text and options.", "quantifier": "every sequence of YAML events", "why_tests_cant": "All files, all orders of entries and options.", "anchors": ["src/yaml.rs: YAMLParser"]}
{"id": "C65", "title": "A typeform mask stands for its runs", "statement": "The typeform of a test marks exactly the characters under a `+`: the spans of a class are the maximal runs of `+` of its mask, from left to right, including a run up to the end.", "quantifier": "every class and mask", "why_tests_cant": "All masks.", "anchors": ["src/yaml.rs: emphasis_spans_value"]}
{"id": "C66", "title": "The reports of check and trace are complete", "statement": "The summary of `louis check` has one row per file that could be run, with the number of tests and of each kind of verdict, the kinds adding up to the number of tests, ordered by the number of tests, and a last row whose columns are the sums; without --summary exactly the results that are no successes are printed, in order. The rows of `louis trace` are the translations of the main stage and those that name a rule, numbered from 1 in order.", "quantifier": "every list of outcomes, every trace", "why_tests_cant": "All outcomes and traces.", "anchors": ["src/main.rs: check_yaml, YAMLTestResult, print_trace"]}
{"id": "C67", "title": "A query on the command line finds exactly the tables with all its pairs", "statement": "`louis query k=v,k=v` never panics and prints exactly the tables that declare every pair.", "quantifier": "every argument, every set of table files", "why_tests_cant": "All arguments and indexes.", "anchors": ["src/main.rs: main (Commands::Query)", "src/metadata.rs: find, index"]}
{"id": "C68", "title": "A translation contains exactly the signs its table demands", "statement": "Whatever the table, text and typeform spans: when a text is translated, the signs for computer braille, emphasis, numbers, letters, capitals and avoided contractions that are written are exactly those that the lines of the table (begcomp, begemph, numsign, letsign, capsletter, nocontractsign, ... ) demand for the positions of the text at which a rule begins, in this order and before the translation of the position.", "quantifier": "every accepted table, direction, text and list of spans", "why_tests_cant": "All tables, texts and spans.", "anchors": ["src/translator/table/primary.rs: compile, trace", "src/translator/indication.rs", "src/translator/indication/*.rs"]}
{"id": "C69", "title": "No line that could be used is passed over for a lighter one", "statement": "At every place of a translation, if a line of the table for a piece of text could be used there (the text begins with what the line reads, up to case, its word-boundary and class conditions hold, and neither a number nor computer braille nor an avoided contraction forbids it), then the place is not spelled out character by character, and the line that is used reads at least as many characters, counting a condition on the neighbouring characters as one character; in particular, among lines without conditions the longest match wins.", "quantifier": "every accepted table, direction, text, list of spans and place of the output", "why_tests_cant": "All tables, texts and places in the output.", "anchors": ["src/translator/table/primary.rs: compile, translation_candidates, trace", "src/translator/trie.rs: insert, find_translations", "src/translator/translation.rs: weight"]}
{"id": "C70", "title": "The trace of a translation can be displayed, each rule with the opcode and operands of its line", "statement": "Whatever the accepted table, direction and text: `louis trace` prints a row for every step of the main stage and every use of a rule in the other stages, numbered from 1, with what was read, what was written, the stage, and the opcode and operands of the line the step comes from; it never panics.", "quantifier": "every accepted table, direction, text, and every iteration order of the hash sets and maps involved", "why_tests_cant": "All tables (every opcode, every form of operand) and all texts.", "anchors": ["src/main.rs: print_trace, display_origin", "src/parser.rs: impl Display for Rule", "src/parser/multipass/test.rs: impl Display", "src/parser/multipass/action.rs: impl Display", "src/parser/match_rule.rs: impl Display"]}
{"id": "C71", "title": "What a multipass line reads at a place is determined: instructions in order, each run as long as possible", "statement": "A correct, context or pass2-4 line started at a place of the text either reads nothing there or reads one definite stretch: its instructions in order, each repeated attribute or class taking as many characters as there are (min-max as in C02), and fewer only, one step at a time from the last instruction backwards, if the rest of the test cannot be read otherwise. The line then offers to replace exactly what its brackets hold (all it reads, without brackets) by what its actions write for it, sets the variables its actions assign, and weighs as many characters as its whole test has read. All instructions a table can contain are covered, with the deviations of the code: a look-back is always satisfied and its negation never, `$a` and `$w`-`$z` have no members, a negated string differs in every character, a variable never set is neither equal nor different.", "quantifier": "every line that can be written in a table, every text, every valuation of the variables, at the start of the text or not", "why_tests_cant": "All combinations of instructions, nested brackets and counts against all texts; the machine simulates all ways of reading at once and must pick the preferred one.", "anchors": ["src/translator/context_pattern.rs: ContextPatternsBuilder::insert, from_instruction", "src/translator/regexp.rs: find_anchored", "src/translator/translation.rs: UnresolvedTranslation::resolve"]}
{"id": "C72", "title": "A multipass stage is a function of the lines of its opcode", "statement": "The trace of a correct, pass2, pass3 or pass4 stage is determined item by item by the lines of the opcode that may be used in the direction: at each place the replacement is the heaviest one offered for this place by the lines read from here or from an earlier place the stage went through (the last of them if several weigh the same: those from here before those from earlier places, in the order of the places and of the table), except replacements of nothing already made since text was last replaced; if nothing is offered the next character is copied. The variables have the values last set by the items before. The stage is there exactly if the table has a line with the opcode for the direction; the stages come in the order correct, main, pass2, pass3, pass4 (backward in the reverse order).", "quantifier": "every table (text or files with includes), direction and text", "why_tests_cant": "All tables and texts: the choice at a place depends on readings begun at all earlier places and on the variables then.", "anchors": ["src/translator/table/multipass.rs: compile, trace", "src/translator/pipeline.rs: compile, trace_with_options"]}
{"id": "C73", "title": "The main stage is a function of the lines of the table, item by item", "statement": "At each place the main stage reaches it uses the heaviest of the replacements offered for this place: by the lines for pieces of text that begin here and whose conditions hold (of lines for the same text under the same conditions the first one), by the match and context lines read from here or from an earlier place the stage went through; the last one if several weigh the same. prepunc and postpunc lines count before and after words only, in a number only replacements of single characters, in computer braille only the comp6 lines, and nothing is inserted twice at a place. A nocross line is preferred if it is as heavy and no hyphen may stand within its text. If nothing is offered the character is replaced as its own line says, by the undefined cells, or by its number spelled out. Backward, cells of digits after a number sign are digits and the text is put in capitals where the signs say so. The signs for a place are written when it is reached. The only freedom left is the order of hash maps among equally heavy lines for pieces of text with different conditions.", "quantifier": "every table (text or files with includes) in which no repetition * or + of a match line encloses something that may read nothing; every direction, text, typeform spans and case mapping", "why_tests_cant": "All combinations of lines and texts; the choice at a place depends on readings begun at all earlier places and on insertions made before.", "anchors": ["src/translator/table/primary.rs: compile, trace, translate_with_options", "src/translator/trie.rs: insert, find_translations", "src/translator/match_pattern.rs", "src/translator/context_pattern.rs"]}
{"id": "C74", "title": "What an unambiguous table writes can be read back", "statement": "If every line of a table replaces a piece of text by braille (in some places or everywhere), everything it may write is also the braille of a line that is used everywhere in backward direction, and the braille of no line for backward translation begins with that of a line for other characters, then translating any text in the characters the table defines forward and translating the result backward gives the text back.", "quantifier": "every table with these three features, every text of defined characters that are their own lowercase, every list of spans, every order of the hash maps in both translators", "why_tests_cant": "It relates two translators on all texts; a table can only be tried on samples.", "anchors": ["src/lib.rs: Translator::translate", "src/translator/table/primary.rs: PrimaryTable::trace, compile", "src/translator/trie.rs: Trie::insert, find_translations"]}
{"id": "C75", "title": "Words are translated by themselves", "statement": "With a table whose lines are about what happens within words (no line for a piece of text, character list or decimal point mentions the space; no match, context or multipass lines, computer-braille triggers, letter sign or capital signs for passages), the forward translation of two texts with a space between them is the translation of the first, that of the space and that of the second one after the other, including number, capital-letter, capital-word, no-number and no-contraction signs, punctuation, numbers and hyphenation; and so for any number of words.", "quantifier": "every such table, every space character that belongs to no other class and is its own lowercase, any two texts (which may contain spaces themselves), every case mapping, every order of the hash maps", "why_tests_cant": "It relates the translation of a text to those of all its parts; tests try single texts with single tables.", "anchors": ["src/lib.rs: Translator::translate", "src/translator/table/primary.rs: PrimaryTable::trace, compile", "src/translator/trie.rs: Trie::find_translations", "src/translator/indication: numeric.rs, uppercase.rs, nocontract.rs", "src/translator/position_constraints.rs"]}
{"id": "C76", "title": "A text is translated by the lines for the words that occur in it", "statement": "Lines that only tell how a piece of text is translated (always, word, begword and the other dictionary opcodes, syllable, largesign, joinword, lowword, begnum, endnum, comp6) have no effect on texts in which their piece of text (backward: their braille) does not occur: the table without them still compiles, and translates all these texts in the same way, stage by stage, with the same trace; so does the table with further such lines.", "quantifier": "every table that compiles, every set of such lines, every direction, every text that contains none of their pieces when it reaches the main stage, every list of spans, every case mapping, every order of the hash maps", "why_tests_cant": "It compares two tables on all texts; an unused line may interfere through shared dictionary nodes, precedence or derived character classes.", "anchors": ["src/translator/trie.rs: Trie::insert, find_translations", "src/translator/table/primary.rs: PrimaryTable::compile, trace", "src/translator/table.rs: TableContext::compile", "src/translator/pipeline.rs: TranslationPipeline::compile"]}
{"id": "C77", "title": "The order of lines for different words does not matter", "statement": "Exchanging two neighbouring lines of a table that are about different pieces of text, one of which only tells how its piece is translated, changes neither whether the table compiles nor what it does with any text.", "quantifier": "every table that compiles, every two neighbouring lines of this kind, every direction, text, list of spans, case mapping and order of the hash maps", "why_tests_cant": "It compares two tables on all texts.", "anchors": ["src/translator/trie.rs: Trie::insert", "src/translator/table/primary.rs: PrimaryTable::compile", "src/translator/pipeline.rs: TranslationPipeline::compile"]}
{"id": "C78", "title": "A pattern is matched in time linear in the text and in the pattern", "statement": "However a pattern of a match or multipass line is written (nested loops, alternatives, loops over empty parts), matching it at a position of a text takes a number of elementary steps bounded by a constant times the size of the pattern times the length of the rest of the text, where a part that is required n times counts n times; the main loop and the multipass loop go round at most (n+1)*(m*(n+1)+1) times for a text of n characters and m such lines.", "quantifier": "every pattern, text, variable environment, start flag and case mapping; every compiled table for the rounds", "why_tests_cant": "Exponential backtracking shows only on the right pattern and text; no finite set of timings excludes it.", "anchors": ["src/translator/regexp.rs: CompiledRegexp::find_anchored, add_thread, Regexp::emit", "src/translator/table/primary.rs: trace", "src/translator/table/multipass.rs: trace"]}
{"id": "C79", "title": "The layout of a table does not matter", "statement": "Changing the blanks between the parts of a line, indenting a line, adding blanks or a carriage return at the end of a line, adding or removing blank lines and comments, and ending or not ending the last line change nothing: the text, or the files and all files they include, give the same translator, or are rejected for the same reason.", "quantifier": "every table text (accepted or not), every set of files, every sequence of such edits in any of the files, every direction", "why_tests_cant": "It compares all pairs of texts that differ by any number of such edits.", "anchors": ["src/parser.rs: table, RuleParser::new", "src/lib.rs: Translator::from_table_source, Translator::new"]}
{"id": "C80", "title": "Including a table is pasting its text, and several tables are one", "statement": "A translator made from several table files behaves like the one made from a single text: the lines of the tables, one table after the other, with every include line replaced by the lines of the included table (and so on). There is exactly one such text, and it exists whenever the tables can be read and include no hyphenation dictionary; if this text is not accepted, the files are not accepted.", "quantifier": "every file system, every list of tables, every nesting of includes, every direction", "why_tests_cant": "It ranges over all include graphs and all table texts.", "anchors": ["src/parser.rs: table_expanded, expand_include, expand_includes", "src/lib.rs: Translator::new, Translator::from_table_source"]}
{"id": "C81", "title": "The command line translates as the library does, line by line", "statement": "`louis translate TABLE INPUT` prints exactly the translation that the translator made of TABLE by the library gives, followed by a line feed; if no translator can be made it prints nothing and reports at least one error. `louis trace` prints the same translation first, and then the rows of the trace that wrote it. In a session without INPUT each line is answered as the command with that line would answer it, whatever was entered before, with a prompt before the first and after every answer; a line that is not valid text ends the session.", "quantifier": "every file system, table, direction, input, and every sequence of lines entered in a session", "why_tests_cant": "It ranges over all histories of a session and compares every answer with the library.", "anchors": ["src/main.rs: translate, trace, repl, main, print_errors", "src/parser.rs: table_expanded", "src/lib.rs: Translator::new"]}
{"id": "C82", "title": "louis parse answers a line as a table would read it", "statement": "`louis parse TABLE` shows the rules of the table with its includes expanded, in order, or reports at least one error. In a session each line is answered by itself: with the rule it stands for in a table, with nothing if a table ignores it (blank lines and comments), and with an error if a table rejects it.", "quantifier": "every file system and table, every sequence of lines", "why_tests_cant": "It ranges over all lines and all histories of a session.", "anchors": ["src/main.rs: parse, parse_line, repl", "src/parser.rs: table, RuleParser::rule"]}
{"id": "C83", "title": "Forward translation writes nothing but what the lines give", "statement": "Each character of a forward translation is a cell of the dots operand of a line, a character that the action of a context, pass2, pass3 or pass4 line writes, a replacement of a swap class, or one of the cells built in for unknown characters. In particular the translation of any text consists of braille cells only, unless a line says otherwise (a context line that copies what it reads, strings of characters in actions, swapcc).", "quantifier": "every table, every text, all spans", "why_tests_cant": "It ranges over all tables and all texts, including texts with characters that the table does not know.", "anchors": ["src/translator.rs: translate", "src/translator/table/primary.rs: trace, handle_undefined_char", "src/translator/table/multipass.rs: trace"]}
{"id": "C84", "title": "Backward translation writes nothing but what the lines give", "statement": "Each character of a backward translation is a character of a line that is used in this direction, a character that the action of a context or correct line writes, a cell of a sign, of an undefined line or of a match line, or a replacement of a class, possibly in capitals. A cell of a character definition, or one built into the program, is written only where a match line asks for it with `=` or where no line says what to write for unknown cells. In particular a table with an undefined line and without context, correct, match and swap lines gives only letters of its lines and cells of its signs and of its undefined lines. Context lines that copy the cells they read are excepted.", "quantifier": "every table, every text of cells, all spans", "why_tests_cant": "It ranges over all tables and all texts, including cells that the table does not know.", "anchors": ["src/translator.rs: translate", "src/translator/table/primary.rs: trace, handle_undefined_char, compile", "src/translator/table/multipass.rs: trace"]}
{"id": "C85", "title": "Uncontracted braille with capitals is read back", "statement": "With a table that defines characters (letters, digits, signs, punctuation, space), says which of them are the capitals of others (uppercase or base uppercase lines) and gives a sign for a capital letter, the braille of a text is that of its characters one after the other with the sign before every upper-case letter. If no braille begins with that of another character, the cell of the sign occurs in none, and every character is defined above its capitals, the translators of the table in both directions undo each other: what is written for a text is read back as that text, capitals included.", "quantifier": "every such table, every text in its characters", "why_tests_cant": "It ranges over all tables of this kind and texts of any length; it depends on where capital signs are read among the cells, on the order of definitions and on letters being restored from their capitals.", "anchors": ["src/translator.rs: translate", "src/translator/table/primary.rs: trace, compile", "src/translator/indication/uppercase.rs"]}
{"id": "C86", "title": "Uncontracted braille with capitals and numbers is spelled out", "statement": "With a table that defines characters, says which are capitals (uppercase or base uppercase lines) and which are digits (litdigit lines), and gives a sign for a capital letter and one for numbers, the braille of a text is that of its characters one after the other, with the sign for capitals before every upper-case letter and the sign for numbers before every digit that does not follow a digit (before the sign for capitals, if both are due), and nothing else.", "quantifier": "every such table, every text in its characters", "why_tests_cant": "It ranges over all tables of this kind and texts of any length; what is written for a character depends on the one before it and on which of several tables of signs is consulted first.", "anchors": ["src/translator/table/primary.rs", "src/translator/indication/numeric.rs", "src/translator/indication/uppercase.rs", "src/translator/indication.rs: Indicators::precompute"]}
{"id": "C87", "title": "Uncontracted braille with capitals and numbers is read back", "statement": "With such a table, if no braille begins with that of another character, the cells of the signs occur in none and differ, no letter is also a digit, and every character is defined above its capitals (so digits have cells of their own), the translators of the table in both directions undo each other: what is written for a text is read back as that text, capitals and digits included.", "quantifier": "every such table, every text in its characters", "why_tests_cant": "It ranges over all tables of this kind and texts of any length; it depends on where signs are read among the cells, on what number mode prefers, and on the order in which the lines fill the table.", "anchors": ["src/translator.rs: translate", "src/translator/table/primary.rs", "src/translator/indication/numeric.rs", "src/translator/indication/uppercase.rs"]}
{"id": "C88", "title": "Digits with the cells of letters are read back", "statement": "With a table for uncontracted braille with capitals and numbers in which digits may be written with the cells of letters (as in most braille codes: 1 and a are both dot 1), if letters are defined above the digits with the same cells, every digit has one cell, the cells of the signs occur in no character, and no other braille begins with that of another character, then what is written for a text is read back as that text, letters, capitals and digits included, provided numbers are set apart in the text: no number directly after a character that ends with the cell of a letter, and directly after a number no character, other than a capital, that begins with the cell of a digit.", "quantifier": "every such table, every text in its characters in which numbers are set apart", "why_tests_cant": "It ranges over all tables of this kind and texts of any length; whether a cell is a letter or a digit depends on all the cells before it back to the last number sign, and on the order of the lines.", "anchors": ["src/translator.rs: translate", "src/translator/table/primary.rs: digit overrides", "src/translator/indication/numeric.rs", "src/translator/indication/uppercase.rs"]}
