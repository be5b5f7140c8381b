import Verif.Spec.Cli
import Verif.Spec.Layout
import Verif.Props.PipelineTotal
import Verif.Props.Scanner
import Verif.Props.ParseTable
import Verif.Props.Includes
import Verif.Props.Layout
import Verif.Props.Lines
import Verif.Props.Demo
import Verif.Props.ShowTrace
import Verif.Lemmas.Content

/-!
# C81, C82: the commands `translate`, `trace` and `parse`
-/

namespace Louis

/-! ## Errors are reported -/

theorem allOrErrors_ne {ε α : Type} : ∀ {rs : List (Except ε α)} {es : List ε}, allOrErrors rs = .error es →
    es ≠ [] ∧ ∀ e ∈ es, .error e ∈ rs
  | [], es, h => by cases h
  | r :: rs, es, h => by
    unfold allOrErrors at h
    cases r with
    | ok a =>
      cases e' : allOrErrors rs with
      | ok as => rw [e'] at h; cases h
      | error fs =>
        rw [e'] at h
        cases h
        obtain ⟨h1, h2⟩ := allOrErrors_ne e'
        exact ⟨h1, fun e he => List.mem_cons_of_mem _ (h2 e he)⟩
    | error e =>
      cases e' : allOrErrors rs with
      | ok as =>
        rw [e'] at h
        cases h
        exact ⟨by simp, fun f hf => by rw [List.mem_singleton.mp hf]; exact List.mem_cons_self ..⟩
      | error fs =>
        rw [e'] at h
        cases h
        obtain ⟨h1, h2⟩ := allOrErrors_ne e'
        refine ⟨by simp, fun f hf => ?_⟩
        rcases List.mem_cons.mp hf with rfl | hf
        · exact List.mem_cons_self ..
        · exact List.mem_cons_of_mem _ (h2 f hf)

theorem concatOrErrors_ne {ε α : Type} {rs : List (Except (List ε) (List α))} {es : List ε} (h : concatOrErrors rs = .error es)
    (hrs : ∀ fs, .error fs ∈ rs → fs ≠ []) : es ≠ [] := by
  unfold concatOrErrors at h
  cases e : allOrErrors rs with
  | ok as => rw [e] at h; cases h
  | error ess =>
    rw [e] at h
    cases h
    obtain ⟨h1, h2⟩ := allOrErrors_ne e
    cases ess with
    | nil => exact absurd rfl h1
    | cons fs ess =>
      have := hrs fs (h2 fs (List.mem_cons_self ..))
      simp [this]

theorem expandHead_ne {fs : Files} {file : Text} {k : Text → Text → Except (List TableErr) (List (Rule × Loc))} {es : List TableErr}
    (h : expandHead fs file k = .error es) (hk : ∀ p c es, k p c = .error es → es ≠ []) : es ≠ [] := by
  unfold expandHead at h
  split at h
  · cases h; simp
  · split at h
    · cases h; simp
    · exact hk _ _ _ h

theorem expandTable_ne (fs : Files) : ∀ (n : Nat) (chain : List Text) (file : Text) (es : List TableErr),
    expandTable fs n chain file = .error es → es ≠ []
  | 0, chain, file, es, h => expandHead_ne h (fun _ _ es h => by cases h; simp)
  | n + 1, chain, file, es, h => expandHead_ne h fun path canonical es h => by
    split at h
    · cases h; simp
    · split at h
      · next es' e =>
        cases h
        unfold tableFile at e
        split at e
        · cases e; simp
        · split at e
          · cases e
          · next locs hl =>
            cases e
            have := (allOrErrors_ne hl).1
            simpa using this
      · next rules _ =>
        refine concatOrErrors_ne h fun fs' hf => ?_
        obtain ⟨r, -, hr⟩ := List.mem_map.mp hf
        unfold expandInclude at hr
        split at hr
        · split at hr
          · split at hr
            · cases hr; simp
            · cases hr
          · exact expandTable_ne fs n _ _ _ hr
        · cases hr

/-- A table that is not accepted is rejected with an error. -/
theorem tableExpanded_ne {fs : Files} {file : Text} {es : List TableErr} (h : tableExpanded fs file = .error es) : es ≠ [] :=
  expandTable_ne fs _ _ _ _ h

theorem allTables_one (fs : Files) (file : Text) : allTables fs [file] = tableExpanded fs file := by
  rw [allTables]
  cases tableExpanded fs file <;> simp [allTables]

theorem printed_errors (es : List TableErr) : printed (es.map fun e => .err (.table e)) = [] := by
  induction es with
  | nil => rfl
  | cons e es ih => simpa [printed] using ih

theorem complaints_errors (es : List TableErr) : complaints (es.map fun e => .err (.table e)) = es.map .table := by
  induction es with
  | nil => rfl
  | cons e es ih => simpa [complaints] using ih

/-- Reading and compiling the table for a command is `Translator::new`. -/
theorem withTable_cases {sys : Sys} {fs : Files} {file : Text} {d : Direction} {use : List Anchored → List Transform → List Piece → Prop}
    {ps : List Piece} (h : WithTable sys fs file d use ps) :
    (∃ rules steps, allTables fs [file] = .ok rules ∧ Pipeline.Compiles sys (anchor rules) d steps ∧ use (anchor rules) steps ps) ∨
    (LibraryRefuses sys fs [file] d ∧ printed ps = [] ∧ (complaints ps ≠ [] ∨ panics ps)) := by
  cases h with
  | used rules steps ps h hc hu => exact .inl ⟨rules, steps, by rw [allTables_one, h], hc, hu⟩
  | notCompiled rules e h hc hp =>
    exact .inr ⟨⟨.compile e, by simp only [translatorNew, allTables_one, h, hc]⟩, rfl, .inl (by simp [complaints])⟩
  | panicked rules h hc =>
    exact .inr ⟨⟨.compile .panic, by simp only [translatorNew, allTables_one, h, hc]⟩, rfl, .inr trivial⟩
  | notRead es h =>
    refine .inr ⟨⟨.parse, by simp only [translatorNew, allTables_one, h]⟩, printed_errors es, .inl ?_⟩
    rw [complaints_errors]
    have := tableExpanded_ne h
    simpa using this

/-- If `Translator::new` fails, so does the command, whatever it does with the table. -/
theorem withTable_refused {sys : Sys} {fs : Files} {file : Text} {d : Direction} {use : List Anchored → List Transform → List Piece → Prop}
    (h : LibraryRefuses sys fs [file] d) : (∃ ps, WithTable sys fs file d use ps) ∧
      ∀ ps, WithTable sys fs file d use ps → printed ps = [] ∧ (complaints ps ≠ [] ∨ panics ps) := by
  obtain ⟨e, h⟩ := h
  rw [translatorNew, allTables_one] at h
  constructor
  · cases hr : tableExpanded fs file with
    | error es => exact ⟨_, .notRead es hr⟩
    | ok rules =>
      simp only [hr] at h
      cases hc : Pipeline.compile sys (anchor rules) d with
      | ok p => simp only [hc] at h; cases h
      | error e =>
        by_cases hp : e = .panic
        · exact ⟨_, .panicked rules hr (hp ▸ hc)⟩
        · exact ⟨_, .notCompiled rules e hr hc hp⟩
  · intro ps hps
    rcases withTable_cases hps with ⟨rules, steps, hr, ⟨s₀, hc, -⟩, -⟩ | ⟨-, h⟩
    · rw [allTables_one] at hr
      simp only [hr, hc] at h
      cases h
    · exact h

/-! ## translate -/

/-- **C81.**  `louis translate TABLE INPUT` prints exactly what the library translates the input to, followed by a line feed; if the
library cannot make a translator it prints nothing but reports at least one error. -/
theorem C81_translate (sys : Sys) (fs : Files) (cs : Case) (file : Text) (d : Direction) (input : Text) :
    (∀ ps, TranslateCommand sys fs cs file d input ps →
      (∃ out, LibraryTranslates sys fs cs [file] d input out ∧ printed ps = out ++ ['\n'] ∧ complaints ps = [] ∧ ¬ panics ps) ∨
      (LibraryRefuses sys fs [file] d ∧ printed ps = [] ∧ (complaints ps ≠ [] ∨ panics ps))) ∧
    (∀ out, LibraryTranslates sys fs cs [file] d input out →
      ∃ ps, TranslateCommand sys fs cs file d input ps ∧ printed ps = out ++ ['\n']) ∧
    (LibraryRefuses sys fs [file] d → ∃ ps, TranslateCommand sys fs cs file d input ps) := by
  refine ⟨fun ps h => ?_, ?_, fun h => (withTable_refused h).1⟩
  · rcases withTable_cases h with ⟨rules, steps, hr, hc, out, ht, rfl⟩ | h
    · exact .inl ⟨out, ⟨rules, steps, hr, hc, ht⟩, by simp [printed], rfl, fun h => h⟩
    · exact .inr h
  · rintro out ⟨rules, steps, hr, hc, ht⟩
    rw [allTables_one] at hr
    exact ⟨_, .used rules steps _ hr hc ⟨out, ht, rfl⟩, by simp [printed]⟩

/-! ## Sessions -/

theorem printed_append (ps qs : List Piece) : printed (ps ++ qs) = printed ps ++ printed qs := by
  induction ps with
  | nil => rfl
  | cons p ps ih => cases p <;> simp [printed, ih]

theorem complaints_append (ps qs : List Piece) : complaints (ps ++ qs) = complaints ps ++ complaints qs := by
  induction ps with
  | nil => rfl
  | cons p ps ih => cases p <;> simp [complaints, ih]

theorem repl_translate {cs : Case} {rules : List Anchored} {steps : List Transform} {stdin : List (Option Text)} {ps : List Piece}
    (h : ReplLoop (TranslateLine cs rules steps) stdin ps) : ∀ {ls : List Text}, Yields ls stdin →
    ∃ outs : List Text, outs.length = ls.length ∧ (∀ (i : Nat) (l o : Text), ls[i]? = some l → outs[i]? = some o →
        Pipeline.Translates cs [] l steps o) ∧
      printed ps = outs.flatMap (· ++ "\n> ".toList) ∧ complaints ps = [] := by
  induction h with
  | done =>
    intro ls hy
    have : ls = [] := by
      rcases hy with hy | ⟨more, hy⟩
      · simpa using hy.symm
      · simp at hy
    subst this
    exact ⟨[], rfl, fun i l o h => by simp at h, rfl, rfl⟩
  | unreadable more =>
    intro ls hy
    have : ls = [] := by
      cases ls with
      | nil => rfl
      | cons l ls => rcases hy with hy | ⟨more, hy⟩ <;> simp at hy
    subst this
    exact ⟨[], rfl, fun i l o h => by simp at h, rfl, rfl⟩
  | panicked line more ps h hp =>
    obtain ⟨out, -, rfl⟩ := h
    simp at hp
  | line line more ps qs h hp rest ih =>
    intro ls hy
    obtain ⟨out, ht, rfl⟩ := h
    cases ls with
    | nil => rcases hy with hy | ⟨more, hy⟩ <;> simp at hy
    | cons l ls =>
      have hy' : l = line ∧ Yields ls more := by
        rcases hy with hy | ⟨more', hy⟩
        · simp only [List.map_cons, List.cons.injEq, Option.some.injEq] at hy
          exact ⟨hy.1.symm, .inl hy.2⟩
        · simp only [List.map_cons, List.cons_append, List.cons.injEq, Option.some.injEq] at hy
          exact ⟨hy.1.symm, .inr ⟨more', hy.2⟩⟩
      obtain ⟨rfl, hy'⟩ := hy'
      obtain ⟨outs, h1, h2, h3, h4⟩ := ih hy'
      refine ⟨out :: outs, by simp [h1], ?_, ?_, ?_⟩
      · intro i l' o' hl ho
        cases i with
        | zero =>
          simp only [List.getElem?_cons_zero, Option.some.injEq] at hl ho
          subst hl ho
          exact ht
        | succ i => exact h2 i l' o' (by simpa using hl) (by simpa using ho)
      · simp [printed, h3, List.flatMap_cons]
      · simp [complaints, h4]

/-- **C81.**  In a session of `louis translate TABLE` the answer to each line is the translation of that line by one and the same
translator, the one the library makes of the table: nothing that was entered before has an effect.  Prompts and answers alternate. -/
theorem C81_session (sys : Sys) (fs : Files) (cs : Case) (file : Text) (d : Direction) (ls : List Text) (stdin : List (Option Text))
    (hy : Yields ls stdin) (ps : List Piece) (h : TranslateSession sys fs cs file d stdin ps) :
    (∃ outs : List Text, outs.length = ls.length ∧ (∀ (i : Nat) (l o : Text), ls[i]? = some l → outs[i]? = some o →
        LibraryTranslates sys fs cs [file] d l o) ∧
      printed ps = sessionText outs ∧ complaints ps = []) ∨
    (LibraryRefuses sys fs [file] d ∧ printed ps = [] ∧ (complaints ps ≠ [] ∨ panics ps)) := by
  rcases withTable_cases h with ⟨rules, steps, hr, hc, qs, hq, rfl⟩ | h
  · obtain ⟨outs, h1, h2, h3, h4⟩ := repl_translate hq hy
    exact .inl ⟨outs, h1, fun i l o hl ho => ⟨rules, steps, hr, hc, h2 i l o hl ho⟩, by simp [printed, h3, sessionText], h4⟩
  · exact .inr h

/-- … and a session can be held with every translator: for the answers to be given it suffices that the translator translates each line. -/
theorem C81_session_exists (sys : Sys) (fs : Files) (cs : Case) (file : Text) (d : Direction) (rules : List (Rule × Loc))
    (steps : List Transform) (hr : allTables fs [file] = .ok rules) (hc : Pipeline.Compiles sys (anchor rules) d steps)
    (pairs : List (Text × Text)) (ht : ∀ x ∈ pairs, Pipeline.Translates cs [] x.1 steps x.2) :
    ∃ ps, TranslateSession sys fs cs file d (pairs.map fun x => some x.1) ps ∧ printed ps = sessionText (pairs.map (·.2)) := by
  rw [allTables_one] at hr
  have : ∃ qs, ReplLoop (TranslateLine cs (anchor rules) steps) (pairs.map fun x => some x.1) qs ∧
      printed qs = (pairs.map (·.2)).flatMap (· ++ "\n> ".toList) := by
    induction pairs with
    | nil => exact ⟨[], .done, rfl⟩
    | cons x pairs ih =>
      obtain ⟨qs, h1, h2⟩ := ih (fun y hy => ht y (List.mem_cons_of_mem _ hy))
      exact ⟨_, .line x.1 _ [.out (x.2 ++ ['\n'])] qs ⟨x.2, ht x (List.mem_cons_self ..), rfl⟩ (by simp) h1,
        by simp [printed, h2, List.flatMap_cons]⟩
  obtain ⟨qs, h1, h2⟩ := this
  exact ⟨_, .used rules steps _ hr hc ⟨qs, h1, rfl⟩, by simp [printed, h2, sessionText]⟩

/-! ## trace -/

theorem enriches_unique {triggers : List Text} {space : Char → Bool} {input : Text} {spans a b : List Span}
    (h : Enriches triggers space input spans a) (h' : Enriches triggers space input spans b) : a = b := by
  obtain ⟨n, h⟩ := h
  obtain ⟨m, h'⟩ := h'
  have h1 := scanLoop_mono triggers space input _ _ _ _ h (max n m) (Nat.le_max_left ..)
  have h2 := scanLoop_mono triggers space input _ _ _ _ h' (max n m) (Nat.le_max_right ..)
  rw [h1] at h2
  injection h2

/-- A compiled translator has at most one trace of a text. -/
theorem traces_unique {sys : Sys} {rules : List Anchored} {d : Direction} {steps : List Transform}
    (h : Pipeline.Compiles sys rules d steps) (cs : Case) (spans : List Span) : ∀ (input : Text) (tss tss' : List (List Resolved)),
    Pipeline.Traces cs spans input steps tss → Pipeline.Traces cs spans input steps tss' → tss' = tss := by
  have hsteps := compiles_steps h
  clear h
  induction steps with
  | nil => intro input tss tss' h h'; rw [show tss = [] from h, show tss' = [] from h']
  | cons s steps ih =>
    rintro input _ _ ⟨ts, rest, rfl, h1, h2⟩ ⟨ts', rest', rfl, h1', h2'⟩
    have hone : ts' = ts := by
      rcases hsteps s (List.mem_cons_self ..) with ⟨t, k, hs, hc⟩ | ⟨p, rfl, hp⟩
      · obtain ⟨u, -, g⟩ := C06_multipass_terminates t ⟨_, _, _, _, hc⟩ cs.lower input
        rcases hs with rfl | rfl
        · rw [g ts h1, g ts' h1']
        · rw [g ts h1, g ts' h1']
      · obtain ⟨e, cons, ind, g1, g2, g3, g4⟩ := h1
        obtain ⟨e', cons', ind', g1', g2', g3', g4'⟩ := h1'
        have he : e' = e := by
          split at g1
          · next ht => rw [if_pos ht] at g1'; rw [g1, g1']
          · next ht => rw [if_neg ht] at g1'; exact enriches_unique g1' g1
        subst he
        rw [g2] at g2'
        rw [g3] at g3'
        cases g2'
        cases g3'
        obtain ⟨u, -, g⟩ := C09_main_loop_terminates_partial _ d _ p.table hp.built cs cons (fun pos => (ind[pos]?).getD [])
          (hp.ind_empty g3) input
        rw [g ts g4, g ts' g4']
    subst hone
    rw [ih (fun x hx => hsteps x (List.mem_cons_of_mem _ hx)) _ _ _ h2 h2']

/-- **C81.**  `louis trace TABLE INPUT` prints first what `louis translate TABLE INPUT` prints, and then the rows of the trace whose last
stage wrote that translation, or panics if they cannot be shown (C70). -/
theorem C81_trace (ord : Orders) (sys : Sys) (fs : Files) (cs : Case) (file : Text) (d : Direction) (input : Text) (ps : List Piece)
    (h : TraceCommand ord sys fs cs file d input ps) :
    (∃ rules steps tss, allTables fs [file] = .ok rules ∧ Pipeline.Compiles sys (anchor rules) d steps ∧
      Pipeline.Traces cs [] input steps tss ∧
      LibraryTranslates sys fs cs [file] d input (lastOutput input tss) ∧
      printed ps = lastOutput input tss ++ ['\n'] ∧ complaints ps = [] ∧
      ((∃ rows, traceRows ord (anchor rules) tss = .ok rows ∧ tracesShown ps = [rows] ∧ ¬ panics ps) ∨
        ((∃ f, traceRows ord (anchor rules) tss = .error f) ∧ tracesShown ps = [] ∧ panics ps))) ∨
    (LibraryRefuses sys fs [file] d ∧ printed ps = [] ∧ (complaints ps ≠ [] ∨ panics ps)) := by
  rcases withTable_cases h with ⟨rules, steps, hr, hc, out, tss, ht, htr, rfl⟩ | h
  · refine .inl ⟨rules, steps, tss, hr, hc, htr, ?_⟩
    obtain ⟨tss', h1, -, rfl⟩ := (C11_trace_is_translation cs [] steps input out).mp ht
    obtain rfl := traces_unique hc cs [] input tss tss' htr h1
    refine ⟨⟨rules, steps, hr, hc, ht⟩, ?_⟩
    cases e : traceRows ord (anchor rules) tss' with
    | ok rows => exact ⟨by simp [printed], rfl, .inl ⟨rows, rfl, rfl, fun h => h⟩⟩
    | error f => exact ⟨by simp [printed], rfl, .inr ⟨⟨f, rfl⟩, rfl, trivial⟩⟩
  · exact .inr h

/-! ## Sessions in general -/

theorem Yields.cons {l line : Text} {ls : List Text} {more : List (Option Text)} (hy : Yields (l :: ls) (some line :: more)) :
    l = line ∧ Yields ls more := by
  rcases hy with hy | ⟨more', hy⟩
  · simp only [List.map_cons, List.cons.injEq, Option.some.injEq] at hy
    exact ⟨hy.1.symm, .inl hy.2⟩
  · simp only [List.map_cons, List.cons_append, List.cons.injEq, Option.some.injEq] at hy
    exact ⟨hy.1.symm, .inr ⟨more', hy.2⟩⟩

theorem repl_answers {handler : Text → List Piece → Prop} {stdin : List (Option Text)} {ps : List Piece}
    (h : ReplLoop handler stdin ps) : ∀ {ls : List Text}, Yields ls stdin →
    ∃ answers : List (List Piece), (∀ (i : Nat) (l : Text) (a : List Piece), ls[i]? = some l → answers[i]? = some a → handler l a ∧ .panic ∉ a) ∧
      ((answers.length = ls.length ∧ ps = answers.flatMap (· ++ [.out ['>', ' ']])) ∨
        ∃ l last, ls[answers.length]? = some l ∧ handler l last ∧ .panic ∈ last ∧ ps = answers.flatMap (· ++ [.out ['>', ' ']]) ++ last) := by
  induction h with
  | done =>
    intro ls hy
    have : ls = [] := by
      rcases hy with hy | ⟨more, hy⟩
      · simpa using hy.symm
      · simp at hy
    subst this
    exact ⟨[], fun i l a h => by simp at h, .inl ⟨rfl, rfl⟩⟩
  | unreadable more =>
    intro ls hy
    have : ls = [] := by
      cases ls with
      | nil => rfl
      | cons l ls => rcases hy with hy | ⟨more, hy⟩ <;> simp at hy
    subst this
    exact ⟨[], fun i l a h => by simp at h, .inl ⟨rfl, rfl⟩⟩
  | panicked line more ps h hp =>
    intro ls hy
    cases ls with
    | nil => rcases hy with hy | ⟨more, hy⟩ <;> simp at hy
    | cons l ls =>
      obtain ⟨rfl, -⟩ := hy.cons
      exact ⟨[], fun i l a _ h => by simp at h, .inr ⟨l, ps, rfl, h, hp, rfl⟩⟩
  | line line more ps qs h hp rest ih =>
    intro ls hy
    cases ls with
    | nil => rcases hy with hy | ⟨more, hy⟩ <;> simp at hy
    | cons l ls =>
      obtain ⟨rfl, hy'⟩ := hy.cons
      obtain ⟨answers, h1, h2⟩ := ih hy'
      refine ⟨ps :: answers, ?_, ?_⟩
      · intro i l' a hl ha
        cases i with
        | zero =>
          simp only [List.getElem?_cons_zero, Option.some.injEq] at hl ha
          subst hl ha
          exact ⟨h, hp⟩
        | succ i => exact h1 i l' a (by simpa using hl) (by simpa using ha)
      · rcases h2 with ⟨h2, rfl⟩ | ⟨l', last, h2, h3, h4, rfl⟩
        · exact .inl ⟨by simp [h2], by simp [List.flatMap_cons]⟩
        · exact .inr ⟨l', last, by simpa using h2, h3, h4, by simp [List.flatMap_cons]⟩

/-- **C81.**  In a session of `louis trace TABLE` each line is answered as `louis trace TABLE LINE` answers it, with a prompt before the
first and after each answer, until a trace cannot be shown: that ends the session. -/
theorem C81_trace_session (ord : Orders) (sys : Sys) (fs : Files) (cs : Case) (file : Text) (d : Direction) (ls : List Text)
    (stdin : List (Option Text)) (hy : Yields ls stdin) (ps : List Piece) (h : TraceSession ord sys fs cs file d stdin ps) :
    (∃ answers : List (List Piece), (∀ (i : Nat) (l : Text) (a : List Piece), ls[i]? = some l → answers[i]? = some a →
        TraceCommand ord sys fs cs file d l a ∧ .panic ∉ a) ∧
      ((answers.length = ls.length ∧ ps = .out "> ".toList :: answers.flatMap (· ++ [.out "> ".toList])) ∨
        ∃ l last, ls[answers.length]? = some l ∧ TraceCommand ord sys fs cs file d l last ∧ .panic ∈ last ∧
          ps = .out "> ".toList :: answers.flatMap (· ++ [.out "> ".toList]) ++ last)) ∨
    (LibraryRefuses sys fs [file] d ∧ printed ps = [] ∧ (complaints ps ≠ [] ∨ panics ps)) := by
  rcases withTable_cases h with ⟨rules, steps, hr, hc, qs, hq, rfl⟩ | h
  · rw [allTables_one] at hr
    obtain ⟨answers, h1, h2⟩ := repl_answers hq hy
    refine .inl ⟨answers, fun i l a hl ha => ⟨.used rules steps _ hr hc (h1 i l a hl ha).1, (h1 i l a hl ha).2⟩, ?_⟩
    rcases h2 with ⟨h2, rfl⟩ | ⟨l, last, h2, h3, h4, rfl⟩
    · exact .inl ⟨h2, rfl⟩
    · exact .inr ⟨l, last, h2, .used rules steps _ hr hc h3, h4, rfl⟩
  · exact .inr h

/-- **C82.**  In a session of `louis parse` each line is answered by itself. -/
theorem C82_session (ls : List Text) (stdin : List (Option Text)) (hy : Yields ls stdin) (ps : List Piece) (h : ParseSession stdin ps) :
    ps = .out "> ".toList :: ls.flatMap (fun l => parseReply l ++ [.out "> ".toList]) := by
  obtain ⟨qs, hq, rfl⟩ := h
  have np : ∀ l, .panic ∉ parseReply l := by
    intro l
    unfold parseReply
    split
    · split <;> simp
    · simp
  obtain ⟨answers, h1, h2⟩ := repl_answers hq hy
  rcases h2 with ⟨h2, rfl⟩ | ⟨l, last, -, rfl, h4, -⟩
  · have : answers = ls.map parseReply := by
      apply List.ext_getElem?
      intro i
      by_cases hi : i < ls.length
      · have e1 := List.getElem?_eq_getElem hi
        have e2 := List.getElem?_eq_getElem (h2 ▸ hi : i < answers.length)
        rw [e2, List.getElem?_map, e1]
        exact congrArg some (h1 i _ _ e1 e2).1
      · rw [List.getElem?_eq_none (by omega), List.getElem?_eq_none (by simp; omega)]
    rw [this, List.flatMap_map]
    rfl
  · exact absurd h4 (np l)

/-! ## parse -/

/-- **C82.**  `louis parse TABLE` shows the rules of the table with its includes expanded, in order, or reports at least one error. -/
theorem C82_parse_table (fs : Files) (file : Text) :
    (∃ rules, tableExpanded fs file = .ok rules ∧ rulesShown (parseCommand fs file) = rules.map (·.1) ∧
      complaints (parseCommand fs file) = []) ∨
    ((∃ es, tableExpanded fs file = .error es ∧ complaints (parseCommand fs file) = es.map .table ∧ es ≠ []) ∧
      rulesShown (parseCommand fs file) = []) := by
  unfold parseCommand
  cases e : tableExpanded fs file with
  | ok rules =>
    refine .inl ⟨rules, rfl, ?_, ?_⟩
    · clear e; induction rules with
      | nil => rfl
      | cons r rules ih => simp [rulesShown] at ih ⊢; exact ih
    · clear e; induction rules with
      | nil => rfl
      | cons r rules ih => simp [complaints] at ih ⊢; exact ih
  | error es =>
    refine .inr ⟨⟨es, rfl, complaints_errors es, tableExpanded_ne e⟩, ?_⟩
    clear e; induction es with
    | nil => rfl
    | cons r es ih => simp [rulesShown] at ih ⊢; exact ih

/-- **C82.**  A line that is neither blank nor a comment is answered as it would be read in a table: with the rule it stands for, or
with an error if a table with this line is rejected. -/
theorem C82_parse_line (line : Text) (hn : '\n' ∉ line) (hl : ¬ IsRemark line) :
    (∃ r loc, parseTable line none = .ok [(r, loc)] ∧ rulesShown (parseReply line) = [r] ∧ complaints (parseReply line) = []) ∨
    ((∃ es, parseTable line none = .error es) ∧ rulesShown (parseReply line) = [] ∧ complaints (parseReply line) = [.line]) := by
  have hr : isRuleLine line = true := by
    cases e : isRuleLine line with
    | true => rfl
    | false =>
      refine absurd ⟨hn, line.takeWhile isWs, line.dropWhile isWs, (List.takeWhile_append_dropWhile).symm, ?_, ?_⟩ hl
      · intro c hc; exact List.all_eq_true.mp (List.all_takeWhile (p := isWs) (l := line)) c hc
      · unfold isRuleLine at e
        cases e' : line.dropWhile isWs with
        | nil => exact .inl rfl
        | cons c r =>
          rw [e'] at e
          simp only [bne_eq_false_iff_eq] at e
          exact .inr ⟨r, by rw [e]⟩
  have hne : line ≠ [] := by rintro rfl; cases hr
  have hh : line.head? ≠ some '#' := by
    intro h
    cases line with
    | nil => cases h
    | cons c l =>
      injection h with h
      subst h
      revert hr
      rw [isRuleLine_cons (by decide)]
      simp
  have hlines : lines line = [line] := by rw [C32_last_line line hn, if_neg hne]
  unfold parseReply
  rw [if_pos ⟨hh, hne⟩, parseTable, hlines]
  simp only [List.zipIdx_cons, List.zipIdx_nil, List.filter_cons, hr, if_true, List.filter_nil, List.map_cons, List.map_nil]
  cases parseLine line with
  | some r => exact .inl ⟨r, _, rfl, rfl, rfl⟩
  | none => exact .inr ⟨⟨_, rfl⟩, rfl, rfl⟩

theorem isRuleLine_prefix {t x : Text} (h : isRuleLine (t ++ x) = false) : isRuleLine t = false := by
  cases e : isRuleLine t with
  | false => rfl
  | true =>
    obtain ⟨w, c, r, rfl, hw, hc, hh⟩ := (C32_rule_line t).mp e
    have := (C32_rule_line ((w ++ c :: r) ++ x)).mpr ⟨w, c, r ++ x, by simp, hw, hc, hh⟩
    rw [this] at h
    cases h

/-- The first word of a remark is a remark. -/
theorem first_word_remark : ∀ (line t w : Text), isRuleLine (t ++ line) = false → (tokensFrom t line).head? = some w → isRuleLine w = false
  | [], t, w, h, hw => by
    unfold tokensFrom at hw
    split at hw
    · cases hw
    · cases hw; simpa using h
  | c :: s, t, w, h, hw => by
    unfold tokensFrom at hw
    split at hw
    · next hc =>
      split at hw
      · next ht =>
        subst ht
        refine first_word_remark s [] w ?_ hw
        rw [List.nil_append, isRuleLine_cons_ws (isAsciiWs_isWs hc)] at h
        exact h
      · cases hw
        exact isRuleLine_prefix h
    · exact first_word_remark s (t ++ [c]) w (by simpa using h) hw

theorem keywords_not_remarks : ∀ w ∈ ["nofor".toList, "noback".toList, "nocross".toList, "before".toList, "after".toList,
    "empmatchbefore".toList, "empmatchafter".toList], isRuleLine w = true := by decide +kernel

theorem opcodes_not_remarks : ∀ p ∈ opcodeWords, isRuleLine p.1.toList = true := by decide +kernel

/-- A line whose first word is a remark stands for no rule. -/
theorem pRule_remark {ts : List Text} (h : ∀ w, ts.head? = some w → isRuleLine w = false) : pRule ts = none := by
  cases ts with
  | nil => rfl
  | cons w ts =>
    have hw := h w rfl
    have hk : ∀ k ∈ ["nofor".toList, "noback".toList, "nocross".toList, "before".toList, "after".toList,
        "empmatchbefore".toList, "empmatchafter".toList], w ≠ k := by
      rintro k hk rfl
      rw [keywords_not_remarks _ hk] at hw
      cases hw
    simp only [List.mem_cons, List.not_mem_nil, or_false, forall_eq_or_imp, forall_eq] at hk
    obtain ⟨h1, h2, h3, h4, h5, h6, h7⟩ := hk
    have e1 : pConstraints (w :: ts) = some (⟨false, false, false⟩, w :: ts) := by
      show P.bind _ _ _ = _
      simp only [P.bind, P.eat, if_neg h1]
      show P.bind _ _ _ = _
      simp only [P.bind, P.eat, if_neg h2]
      show P.bind _ _ _ = _
      simp only [P.bind, P.eat, if_neg h3]
      rfl
    have e2 : pWithClasses (w :: ts) = ([], w :: ts) := by
      cases ts with
      | nil => rw [pWithClasses, if_neg (fun h => h.elim h4 h5)]
      | cons u ts => rw [pWithClasses, if_neg h4, if_neg h5]
    have e3 : pWithMatches (w :: ts) = w :: ts := by rw [pWithMatches, if_neg (fun h => h.elim h6 h7)]
    have e4 : opcodeOf w = none := by
      cases e : opcodeOf w with
      | none => rfl
      | some op =>
        obtain ⟨s, hs, rfl⟩ := opcodeOf_mem w op e
        rw [opcodes_not_remarks _ hs] at hw
        cases hw
    unfold pRule
    simp only [e1, e2, e3, e4]

/-- **C82 is false of the code** for blank lines and comments: a table ignores each of them, but in a session every one that is not empty
and does not start with `#`, because it is indented or consists of blanks, is answered with an error. -/
theorem C82_remark_partial (line : Text) (hl : IsRemark line) : parseTable line none = .ok [] ∧ rulesShown (parseReply line) = [] ∧
    (complaints (parseReply line) = if line = [] ∨ line.head? = some '#' then [] else [.line]) := by
  have hr : isRuleLine line = false := by
    cases e : isRuleLine line with
    | false => rfl
    | true =>
      have := lineContent_remark hl
      simp [lineContent, e] at this
  have hp : parseLine line = none := by
    rw [parseLine, tokens, pRule_remark (fun w hw => first_word_remark line [] w (by simpa using hr) hw)]
    rfl
  refine ⟨?_, ?_, ?_⟩
  · rw [parseTable, C32_last_line line hl.1]
    split
    · rfl
    · simp [hr, allOrErrors]
  · unfold parseReply
    split
    · rw [hp]; rfl
    · rfl
  · unfold parseReply
    rw [hp]
    by_cases h1 : line = [] <;> by_cases h2 : line.head? = some '#' <;> simp [h1, h2, complaints]

/-! ## Concrete cases -/

/-- An indented comment and a line of blanks are such lines. -/
theorem C82_indented_comment_wrong : parseTable "  # vowels".toList none = .ok [] ∧ complaints (parseReply "  # vowels".toList) = [.line] ∧
    parseTable "\t".toList none = .ok [] ∧ complaints (parseReply "\t".toList) = [.line] := by
  have h1 : IsRemark "  # vowels".toList := ⟨by decide, [' ', ' '], "# vowels".toList, by decide, by decide, .inr ⟨_, rfl⟩⟩
  have h2 : IsRemark "\t".toList := ⟨by decide, ['\t'], [], by decide, by decide, .inl rfl⟩
  refine ⟨(C82_remark_partial _ h1).1, ?_, (C82_remark_partial _ h2).1, ?_⟩
  · rw [(C82_remark_partial _ h1).2.2]; decide
  · rw [(C82_remark_partial _ h2).2.2]; decide

/-- C82 is met by a concrete case. -/
example : rulesShown (parseReply "letter a 1".toList) = [.charDef .letter 'a' [[.d1]] RuleCons.none] := by decide +kernel

/-- A directory with a table that includes another one. -/
def cliFiles : Files := plainFiles
  [("main".toList, "include letters\nalways ab 12\n".toList), ("letters".toList, "letter a 1\nletter b 2\nspace \\s 0\n".toList)]

theorem cli_rules : ∃ rules, allTables cliFiles ["main".toList] = .ok rules ∧
    runText demoSys ascii 20 (anchor rules) .forward [] "ab".toList = some "⠃".toList ∧
    runText demoSys ascii 20 (anchor rules) .forward [] "ba b".toList = some "⠂⠁⠀⠂".toList := by
  refine ⟨_, rfl, ?_, ?_⟩ <;> decide +kernel

/-- C81 is met by a concrete case: a session of two lines. -/
example : ∃ ps, TranslateSession demoSys cliFiles ascii "main".toList .forward [some "ab".toList, some "ba b".toList] ps ∧
    printed ps = "> ⠃\n> ⠂⠁⠀⠂\n> ".toList := by
  obtain ⟨rules, hr, h1, h2⟩ := cli_rules
  obtain ⟨steps, -, hc, -, -, ht⟩ := runText_sound h1
  obtain ⟨steps', -, hc', -, -, ht'⟩ := runText_sound h2
  rw [hc] at hc'
  cases hc'
  exact C81_session_exists demoSys cliFiles ascii "main".toList .forward rules steps hr (compile_compiles hc)
    [("ab".toList, "⠃".toList), ("ba b".toList, "⠂⠁⠀⠂".toList)] (by
      intro x hx
      simp only [List.mem_cons, List.not_mem_nil, or_false] at hx
      rcases hx with rfl | rfl
      · exact ht
      · exact ht')

/-- … and a table that is not there is reported. -/
example (cs : Case) (input : Text) (d : Direction) : TranslateCommand demoSys cliFiles cs "none".toList d input [.err (.table (.notFound "none".toList))] :=
  .notRead [.notFound "none".toList] (by decide +kernel)

end Louis
