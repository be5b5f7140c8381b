import Verif.Lemmas.Primary

/-!
# Properties C09, C10, C15, C23, C25, C39, C47-C51 (main stage)

The main stage is one built by any sequence of rules (`Built`), in any hash-map order; the position constraints
(`Constraints`) and the indications (`ind`) are arbitrary, and so are the Unicode case mappings.
-/

namespace Louis

open Regexp (Fault Compiled findAnchored)

/-! ## C09, C10 -/

/-- **C09 (loop).** The loop of the main stage terminates, without panicking, for every table, text, indications and
position constraints, with exactly one result.  (Missing for C09: the computer-braille scanner that runs before the loop
does not terminate on some texts, see `C30`.) -/
theorem C09_main_loop_terminates_partial (ctx : PrimCtx) (d : Direction) (ops : List PrimOp) (t : PrimaryTable)
    (h : Built ctx d ops t) (cs : Case) (cons : Constraints) (ind : Nat → List Resolved)
    (hind : ∀ p, ∀ r ∈ ind p, r.input = []) (input : Text) :
    ∃ ts, t.Traces cs cons ind input ts ∧ ∀ ts', t.Traces cs cons ind input ts' → ts' = ts := by
  obtain ⟨ts, e, -⟩ := pLoop_total h.ok cs cons ind hind input _ _ (PInv.init t cs.lower input) (Nat.lt_succ_self _)
  refine ⟨ts, ⟨_, e⟩, ?_⟩
  rintro ts' ⟨k, e'⟩
  generalize (pMeasure _ _).succ = n at e
  have h1 := pLoop_mono e (max k n) (Nat.le_max_right _ _)
  have h2 := pLoop_mono e' (max k n) (Nat.le_max_left _ _)
  rw [h1] at h2
  cases h2
  rfl

/-- **C10 (up to case).** The text can be cut into consecutive pieces, one for each translation of the trace, in order;
each piece is the input the translation reports, or becomes it when lowercased.  (Missing for C10: a rule's translation
reports the rule's characters, not the text's, see `C10_reported_case_wrong`.) -/
theorem C10_trace_covers_input_partial (ctx : PrimCtx) (d : Direction) (ops : List PrimOp) (t : PrimaryTable)
    (h : Built ctx d ops t) (cs : Case) (cons : Constraints) (ind : Nat → List Resolved)
    (hind : ∀ p, ∀ r ∈ ind p, r.input = []) (input : Text) (ts : List Resolved)
    (ht : t.Traces cs cons ind input ts) : Covered cs.lower ts input := by
  obtain ⟨ts', e, hc⟩ := pLoop_total h.ok cs cons ind hind input _ _ (PInv.init t cs.lower input) (Nat.lt_succ_self _)
  obtain ⟨u, hu, huniq⟩ := C09_main_loop_terminates_partial ctx d ops t h cs cons ind hind input
  have := huniq _ ht
  have := huniq _ ⟨_, e⟩
  simp_all

theorem spells_fixed {lower : Char → List Char} {a b : Text} (h : Spells lower a b) (hl : ∀ c ∈ a, lower c = [c]) : a = b := by
  induction h with
  | nil => rfl
  | @cons c l cs ls h1 _ ih =>
    have := hl c (List.mem_cons_self ..)
    rw [h1] at this
    simp only [List.cons.injEq, and_true] at this
    rw [this, ih (fun x hx => hl x (List.mem_cons_of_mem _ hx))]

theorem reported_fixed {lower : Char → List Char} {a b : Text} (h : Reported lower a b) (hl : ∀ c ∈ a, lower c = [c]) :
    a = b := h.elim id (fun h => spells_fixed h hl)

theorem covered_fixed {lower : Char → List Char} {ts : List Resolved} {text : Text} (h : Covered lower ts text)
    (hl : ∀ c ∈ text, lower c = [c]) : ts.flatMap (·.input) = text := by
  induction h with
  | nil => rfl
  | cons hr _ ih =>
    rw [List.flatMap_cons, ih (fun c hc => hl c (List.mem_append_right _ hc)),
      reported_fixed hr (fun c hc => hl c (List.mem_append_left _ hc))]

/-- **C10 (texts without capitals).** On a text whose characters are their own lowercase, the reported inputs concatenated
are the text. -/
theorem C10_lowercase_text_exact (ctx : PrimCtx) (d : Direction) (ops : List PrimOp) (t : PrimaryTable)
    (h : Built ctx d ops t) (cs : Case) (cons : Constraints) (ind : Nat → List Resolved)
    (hind : ∀ p, ∀ r ∈ ind p, r.input = []) (input : Text) (hl : ∀ c ∈ input, cs.lower c = [c]) (ts : List Resolved)
    (ht : t.Traces cs cons ind input ts) : ts.flatMap (·.input) = input :=
  covered_fixed (C10_trace_covers_input_partial ctx d ops t h cs cons ind hind input ts ht) hl

theorem covered_length {lower : Char → List Char} {ts : List Resolved} {text : Text} (h : Covered lower ts text) :
    (ts.map (·.input.length)).sum = text.length := by
  induction h with
  | nil => rfl
  | cons hr _ ih => simp only [List.map_cons, List.sum_cons, ih, List.length_append, ← hr.length]

/-- **C10 (count).** Whatever the case of the text, the reported inputs have as many characters as the text. -/
theorem C10_length_exact (ctx : PrimCtx) (d : Direction) (ops : List PrimOp) (t : PrimaryTable)
    (h : Built ctx d ops t) (cs : Case) (cons : Constraints) (ind : Nat → List Resolved)
    (hind : ∀ p, ∀ r ∈ ind p, r.input = []) (input : Text) (ts : List Resolved)
    (ht : t.Traces cs cons ind input ts) : (ts.flatMap (·.input)).length = input.length := by
  rw [List.length_flatMap]
  exact covered_length (C10_trace_covers_input_partial ctx d ops t h cs cons ind hind input ts ht)

/-! ## What each round of the loop does -/

/-- The states the loop goes through on `input`. -/
inductive PReach (t : PrimaryTable) (cs : Case) (cons : Constraints) (ind : Nat → List Resolved) (input : Text) :
    PState → Prop where
  | init : PReach t cs cons ind input (PState.init input)
  | step {s s'} : PReach t cs cons ind input s → pStep t cs cons ind input s = .ok (.inl s') → PReach t cs cons ind input s'

/-- Why a translation was chosen, and what is emitted for it. -/
inductive Chosen (t : PrimaryTable) (cs : Case) (cons : Constraints) (s : PState) (cands : List Resolved) :
    Resolved → Resolved → Prop
  | nocross {n} : nocrossCandidate t cs cons s = some n → (∀ c ∈ cands, c.subset ∉ s.seen → c.weight ≤ n.weight) →
    Chosen t cs cons s cands n (capitalise t cs cons s.pos n)
  | rule {c} : c ∈ cands → c.subset ∉ s.seen → (∀ c' ∈ cands, c'.subset ∉ s.seen → c'.weight ≤ c.weight) →
    (∀ n, nocrossCandidate t cs cons s = some n → n.weight < c.weight) →
    Chosen t cs cons s cands c (capitalise t cs cons s.pos c)
  | plain {x rest r} : s.rest = x :: rest → (∀ c ∈ cands, c.subset ∈ s.seen) → nocrossCandidate t cs cons s = none →
    plainTranslation t x = .ok r → Chosen t cs cons s cands r r

/-- One round: emit the indications of the position on the first visit, then one translation. -/
structure Round (t : PrimaryTable) (cs : Case) (cons : Constraints) (ind : Nat → List Resolved) (input : Text)
    (s s' : PState) (tr : Resolved) : Prop where
  ex : ∃ cands delayed raw, gather t cs cons input s = .ok (cands, delayed) ∧ Chosen t cs cons s cands raw tr ∧
    tr.length = raw.length ∧ tr.input = raw.input ∧
    tr.weight = raw.weight ∧ tr.origin = raw.origin
  fits : Reported cs.lower (s.rest.take tr.length) tr.input ∧ tr.length ≤ s.rest.length
  out : s'.out = (if s.lastInd = some s.pos then s.out else s.out ++ ind s.pos) ++ [tr]
  pos : s'.pos = s.pos + tr.length
  rest : s'.rest = s.rest.drop tr.length
  lastInd : s'.lastInd = some s.pos
  prev : s'.prev = if tr.length = 0 then s.prev else tr.input.getLast?
  seen : ∀ x ∈ s'.seen, x ∈ s.seen ∨ x.length = 0

theorem capitalise_same (t : PrimaryTable) (cs : Case) (cons : Constraints) (p : Nat) (r : Resolved) :
    (capitalise t cs cons p r).length = r.length ∧ (capitalise t cs cons p r).input = r.input ∧
    (capitalise t cs cons p r).weight = r.weight ∧ (capitalise t cs cons p r).origin = r.origin := by
  unfold capitalise
  split
  · exact ⟨rfl, rfl, rfl, rfl⟩
  · split <;> exact ⟨rfl, rfl, rfl, rfl⟩

theorem plain_same {ctx d ops} {t : PrimaryTable} (h : PrimOk ctx d ops t) {c : Char} {r : Resolved}
    (e : plainTranslation t c = .ok r) : r.input = [c] ∧ r.length = 1 := by
  unfold plainTranslation at e
  split at e
  · next r' hr =>
    cases e
    obtain ⟨_, _, rfl⟩ := h.charTrans_input hr
    exact ⟨rfl, rfl⟩
  · split at e
    · cases e; exact ⟨rfl, rfl⟩
    · split at e
      · cases e
      · cases e; exact ⟨rfl, rfl⟩

theorem pStep_round {ctx d ops} {t : PrimaryTable} (h : PrimOk ctx d ops t) {cs : Case} {cons : Constraints}
    {ind : Nat → List Resolved} {input : Text} {s s' : PState} (inv : PInv t cs.lower input s)
    (e : pStep t cs cons ind input s = .ok (.inl s')) : ∃ tr, Round t cs cons ind input s s' tr := by
  obtain ⟨cands, delayed, hg, hc, -⟩ := gather_spec h cs cons input inv
  unfold pStep at e
  simp only [hg] at e
  generalize hcand : heaviest (cands.filter fun c => !s.seen.contains c.subset) = cand at e
  have hnone : cand = none → ∀ c ∈ cands, c.subset ∈ s.seen := by
    intro hn c hm
    rw [hn, heaviest_none, List.filter_eq_nil_iff] at hcand
    simpa using hcand c hm
  have hmax : ∀ c, cand = some c → ∀ c' ∈ cands, c'.subset ∉ s.seen → c'.weight ≤ c.weight := by
    intro c hs c' hm hns
    rw [hs] at hcand
    exact heaviest_max hcand c' (List.mem_filter.2 ⟨hm, by simpa using hns⟩)
  split at e
  · next n hsel =>
    have hn : nocrossCandidate t cs cons s = some n ∧ ∀ c ∈ cands, c.subset ∉ s.seen → c.weight ≤ n.weight := by
      split at hsel
      · next n' c' h1 =>
        split at hsel
        · next hw =>
          cases hsel
          exact ⟨h1, fun c hm hns => Nat.le_trans (hmax _ rfl c hm hns) hw⟩
        · cases hsel
      · next n' h1 =>
        cases hsel
        exact ⟨h1, fun c hm hns => absurd (hnone rfl c hm) hns⟩
      · cases hsel
    obtain ⟨h1, h2, h3, -⟩ := nocross_spec h cs cons (primZero t input.length) hn.1
    rw [if_neg (by omega)] at e
    cases e
    obtain ⟨c1, c2, c3, c4⟩ := capitalise_same t cs cons s.pos n
    refine ⟨_, ⟨⟨cands, delayed, n, hg, .nocross hn.1 hn.2, c1, c2, c3, c4⟩, ?_, rfl, ?_, ?_, rfl, ?_, fun x hx => .inl hx⟩⟩
    · rw [c1, c2]
      exact h1.fits.now h2
    · rw [c1]
    · rw [c1]
    · rw [c1, c2, if_neg (show ¬ n.length = 0 by omega)]
  · next hsel =>
    split at e
    · next c =>
      split at e
      · cases e
      · next env henv =>
        cases e
        have hm := List.mem_filter.1 (heaviest_mem hcand)
        obtain ⟨h0, hpc⟩ := hc c hm.1
        obtain ⟨c1, c2, c3, c4⟩ := capitalise_same t cs cons s.pos c
        refine ⟨_, ⟨⟨cands, delayed, c, hg, .rule hm.1 (by simpa using hm.2) (hmax c rfl) ?_, c1, c2, c3, c4⟩,
          ?_, rfl, ?_, ?_, rfl, ?_, ?_⟩⟩
        · intro n hn
          rw [hn] at hsel
          simp only at hsel
          split at hsel
          · cases hsel
          · omega
        · rw [c1, c2]
          exact hpc.fits.now h0
        · rw [c1]
          simp only
          split <;> simp_all
        · rw [c1]
          simp only
          split <;> simp_all
        · rw [c1, c2]
        · intro x hx
          simp only at hx
          split at hx
          · next hl =>
            rcases List.mem_cons.1 hx with rfl | hx
            · exact .inr hl
            · exact .inl hx
          · cases hx
    · split at e
      · cases e
      · next x rest hr =>
        split at e
        · cases e
        · next r hpl =>
          cases e
          obtain ⟨p1, p2⟩ := plain_same h hpl
          have hnn : nocrossCandidate t cs cons s = none := by
            cases hq : nocrossCandidate t cs cons s with
            | none => rfl
            | some n => rw [hq] at hsel; cases hsel
          refine ⟨r, ⟨⟨cands, delayed, r, hg, .plain hr (hnone rfl) hnn hpl, rfl, rfl, rfl, rfl⟩, ?_, rfl, ?_, ?_,
            rfl, ?_, fun x hx => .inl hx⟩⟩
          · rw [hr, p1, p2]
            exact ⟨.inl rfl, by simp⟩
          · rw [p2]
          · rw [p2, hr]; rfl
          · rw [p2, p1]; rfl

theorem PReach.inv {ctx d ops} {t : PrimaryTable} (h : PrimOk ctx d ops t) {cs cons ind} (hind : ∀ p, ∀ r ∈ ind p, r.input = [])
    {input s} (hr : PReach t cs cons ind input s) : PInv t cs.lower input s := by
  induction hr with
  | init => exact PInv.init _ _ _
  | step _ e ih =>
    rcases pStep_spec h cs cons ind hind input ih with ⟨ts, e', -⟩ | ⟨s2, e', i', -⟩
    · rw [e] at e'; cases e'
    · rw [e] at e'; cases e'; exact i'

theorem PReach.seen_zero {ctx d ops} {t : PrimaryTable} (h : PrimOk ctx d ops t) {cs cons ind}
    (hind : ∀ p, ∀ r ∈ ind p, r.input = []) {input s} (hr : PReach t cs cons ind input s) : ∀ x ∈ s.seen, x.length = 0 := by
  induction hr with
  | init => intro x hx; simp [PState.init] at hx
  | step hr e ih =>
    obtain ⟨tr, r⟩ := pStep_round h (hr.inv h hind) e
    intro x hx
    rcases r.seen x hx with hx | hx
    · exact ih x hx
    · exact hx

/-! ## C49: where the trace puts the indicators -/

/-- `ts` is laid out from position `p`: at every position reached, the indications of that position, then translations that
consume nothing, then one that consumes some characters and leads to the next position reached; at the end of the text (`n`)
the indications and translations that consume nothing. -/
inductive LaidOut (ind : Nat → List Resolved) (n : Nat) : Nat → List Resolved → Prop where
  | stop {zs} : (∀ z ∈ zs, z.length = 0) → LaidOut ind n n (ind n ++ zs)
  | move {p zs t rest} : (∀ z ∈ zs, z.length = 0) → 0 < t.length → LaidOut ind n (p + t.length) rest →
    LaidOut ind n p (ind p ++ zs ++ t :: rest)

theorem laidOut_of_loop {ctx d ops} {t : PrimaryTable} (h : PrimOk ctx d ops t) {cs : Case} {cons : Constraints}
    {ind : Nat → List Resolved} (hind : ∀ p, ∀ r ∈ ind p, r.input = []) {input : Text} :
    ∀ {k s ts}, PReach t cs cons ind input s → pLoop t cs cons ind input k s = .ok ts →
      (s.lastInd ≠ some s.pos → ∃ l, LaidOut ind input.length s.pos l ∧ ts = s.out ++ l) ∧
      (s.lastInd = some s.pos → ∀ done zs, s.out = done ++ ind s.pos ++ zs → (∀ z ∈ zs, z.length = 0) →
        ∃ l, LaidOut ind input.length s.pos l ∧ ts = done ++ l) := by
  intro k
  induction k with
  | zero => intro s ts _ e; simp [pLoop] at e
  | succ k ih =>
    intro s ts hr e
    have inv := hr.inv h hind
    obtain ⟨consumed, hin, hpos, -⟩ := inv.split
    simp only [pLoop] at e
    -- both cases reduce to: the output so far, with the indications of this position
    suffices hh : ∀ done zs, (if s.lastInd = some s.pos then s.out else s.out ++ ind s.pos) = done ++ ind s.pos ++ zs →
        (∀ z ∈ zs, z.length = 0) → ∃ l, LaidOut ind input.length s.pos l ∧ ts = done ++ l by
      constructor
      · intro hne
        exact hh s.out [] (by rw [if_neg hne]; simp) (by simp)
      · intro he done zs ho hz
        exact hh done zs (by rw [if_pos he]; exact ho) hz
    intro done zs ho hz
    split at e
    · cases e
    · next out est =>
      cases e
      have hend : s.rest = [] ∧ ts = (if s.lastInd = some s.pos then s.out else s.out ++ ind s.pos) := by
        obtain ⟨cands, delayed, hg, -, -⟩ := gather_spec h cs cons input inv
        unfold pStep at est
        simp only [hg] at est
        split at est
        · split at est <;> cases est
        · split at est
          · split at est <;> cases est
          · split at est
            · next hre => cases est; exact ⟨hre, rfl⟩
            · split at est <;> cases est
      rw [hend.1, List.append_nil] at hin
      have hp : s.pos = input.length := by rw [hpos, hin]
      rw [hend.2, ho, hp]
      exact ⟨_, .stop hz, by rw [List.append_assoc]⟩
    · next s' est =>
      obtain ⟨tr, r⟩ := pStep_round h inv est
      have ih' := ih (.step hr est) e
      have hout : s'.out = done ++ ind s.pos ++ zs ++ [tr] := by rw [r.out, ho]
      rcases Nat.eq_zero_or_pos tr.length with h0 | h0
      · have hsp : s'.pos = s.pos := by rw [r.pos, h0]; rfl
        obtain ⟨l, hl, e'⟩ := ih'.2 (by rw [r.lastInd, hsp]) done (zs ++ [tr]) (by rw [hout, hsp]; simp) (by
          intro z hz'
          rcases List.mem_append.1 hz' with hz' | hz'
          · exact hz z hz'
          · simp only [List.mem_singleton] at hz'; rw [hz']; exact h0)
        exact ⟨l, by rw [← hsp]; exact hl, e'⟩
      · have hne : s'.lastInd ≠ some s'.pos := by
          rw [r.lastInd, r.pos]
          intro he
          simp only [Option.some.injEq] at he
          omega
        obtain ⟨l, hl, e'⟩ := ih'.1 hne
        refine ⟨ind s.pos ++ zs ++ tr :: l, .move hz h0 (by rw [← r.pos]; exact hl), ?_⟩
        rw [e', hout]
        simp

/-- **C49 (layout).** The trace is laid out position by position: the indications due at a position that the translation
reaches are emitted there exactly once, before the translations at that position; the indications due at a position
strictly inside the text of a rule are not emitted. -/
theorem C49_layout_partial (ctx : PrimCtx) (d : Direction) (ops : List PrimOp) (t : PrimaryTable) (h : Built ctx d ops t)
    (cs : Case) (cons : Constraints) (ind : Nat → List Resolved) (hind : ∀ p, ∀ r ∈ ind p, r.input = []) (input : Text)
    (ts : List Resolved) (ht : t.Traces cs cons ind input ts) : LaidOut ind input.length 0 ts := by
  obtain ⟨k, e⟩ := ht
  obtain ⟨l, hl, e'⟩ := (laidOut_of_loop h.ok hind .init e).1 (by simp [PState.init])
  simp only [PState.init, List.nil_append] at e' hl
  rw [e']
  exact hl

theorem laidOut_mem {ind : Nat → List Resolved} {n p : Nat} {ts : List Resolved} (h : LaidOut ind n p ts)
    (hshort : ∀ x ∈ ts, x.length ≤ 1) : ∀ q, p ≤ q → q ≤ n → ∀ x ∈ ind q, x ∈ ts := by
  induction h with
  | stop =>
    intro q h1 h2 x hx
    have : q = n := by omega
    subst this
    exact List.mem_append_left _ hx
  | @move p zs t rest _ hpos hl ih =>
    intro q h1 h2 x hx
    by_cases hq : q = p
    · subst hq
      simp [hx]
    · have := hshort t (by simp)
      have := ih (fun y hy => hshort y (by simp [hy])) q (by omega) h2 x hx
      simp [this]

/-- **C49 (no contraction).** If no translation of the trace covers more than one character then every indication due
anywhere in the text is emitted. -/
theorem C49_every_indication_partial (ctx : PrimCtx) (d : Direction) (ops : List PrimOp) (t : PrimaryTable)
    (h : Built ctx d ops t) (cs : Case) (cons : Constraints) (ind : Nat → List Resolved)
    (hind : ∀ p, ∀ r ∈ ind p, r.input = []) (input : Text) (ts : List Resolved) (ht : t.Traces cs cons ind input ts)
    (hshort : ∀ x ∈ ts, x.length ≤ 1) : ∀ q ≤ input.length, ∀ x ∈ ind q, x ∈ ts :=
  fun q hq => laidOut_mem (C49_layout_partial ctx d ops t h cs cons ind hind input ts ht) hshort q (Nat.zero_le _) hq

/-! ## C48: what `before`/boundary conditions see -/

/-- **C48 (texts without capitals).** At every round the previous character the conditions of rules are checked against is
the character of the text before the position. -/
theorem C48_prev_is_text_partial (ctx : PrimCtx) (d : Direction) (ops : List PrimOp) (t : PrimaryTable)
    (h : Built ctx d ops t) (cs : Case) (cons : Constraints) (ind : Nat → List Resolved)
    (hind : ∀ p, ∀ r ∈ ind p, r.input = []) (input : Text) (hl : ∀ c ∈ input, cs.lower c = [c]) (s : PState)
    (hr : PReach t cs cons ind input s) : s.prev = (input.take s.pos).getLast? := by
  induction hr with
  | init => simp [PState.init]
  | @step s s' hr e ih =>
    have inv := hr.inv h.ok hind
    obtain ⟨tr, r⟩ := pStep_round h.ok inv e
    obtain ⟨consumed, hin, hpos, -⟩ := inv.split
    have htake : input.take (s.pos + tr.length) = consumed ++ s.rest.take tr.length := by
      rw [hin, hpos, List.take_append]
      simp
      exact List.take_of_length_le (by omega)
    have hrep := reported_fixed r.fits.1 (fun c hc => hl c (by rw [hin]; exact List.mem_append_right _ (List.mem_of_mem_take hc)))
    rw [r.prev, r.pos]
    split
    · next h0 => rw [h0]; exact ih
    · next h0 =>
      rw [htake, hrep]
      have : tr.input ≠ [] := by
        intro he
        have hlen := congrArg List.length hrep
        have := r.fits.2
        rw [he, List.length_take, List.length_nil] at hlen
        omega
      rw [List.getLast?_append, List.getLast?_eq_some_getLast this]
      rfl

/-! ## C15, C23, C25, C50, C51: which translation is applied -/

/-- **C15 (main stage).** When a translation is applied at a position, every dictionary rule that applies there has at most
as many characters as the weight of the applied translation, unless the position is gated (numeric or no-contract stretch,
computer braille, digit reading, punctuation). -/
theorem C15_primary_heaviest (ctx : PrimCtx) (d : Direction) (ops : List PrimOp) (t : PrimaryTable) (h : Built ctx d ops t)
    (cs : Case) (cons : Constraints) (ind : Nat → List Resolved) (hind : ∀ p, ∀ r ∈ ind p, r.input = []) (input : Text)
    (s s' : PState) (hr : PReach t cs cons ind input s) (tr : Resolved) (hround : Round t cs cons ind input s s' tr)
    (hc : cons.dontContract s.pos = false) (h6 : cons.useComp6 s.pos = false) (hd : cons.preferDigit s.pos = false)
    (r : TrieRule) (hmem : r ∈ trieRules d ops) (hm : RuleMatches ctx.trieClasses cs.lower d r s.rest s.prev)
    (hpunct : ∀ r' ∈ trieRules d ops, r'.from d = r.from d → r'.origin.kind = .other) :
    (r.from d).length ≤ tr.weight := by
  obtain ⟨f, hf, r', hr', hsame, hfrom⟩ := C13_applying_rule_found ctx.trieClasses cs.lower d (trieRules d ops) t.trie h.ok.trie
    s.rest s.prev r hmem hm
  have hle : (r.from d).length ≤ f.weight := by
    have h1 := hsame.1
    rcases hfrom.weight with hw | hw
    · rw [hw, TrieRule.weight, h1]; omega
    · rw [hw, h1]; exact Nat.le_refl _
  obtain ⟨cands, delayed, raw, hg, hch, -, -, hw, -⟩ := hround.ex
  rw [hw]
  have hfc : f ∈ cands := by
    unfold gather at hg
    simp only at hg
    split at hg
    · cases hg
    · next ms _ =>
      split at hg
      · cases hg
      · next xs _ =>
        simp only [Except.ok.injEq, Prod.mk.injEq] at hg
        obtain ⟨hg, -⟩ := hg
        rw [← hg]
        unfold selectCandidates preferDigit
        simp only [hc, h6, hd, Bool.and_false, Bool.false_eq_true, if_false]
        rw [List.mem_filter]
        refine ⟨?_, ?_⟩
        · simp only [List.mem_append, List.mem_filter]
          exact .inl (.inl (.inl ⟨hf, by simp [hfrom.offset]⟩))
        · have := hpunct r' hr' hsame.1.symm
          unfold punctOk
          rw [hfrom.origin]
          cases ho : r'.origin with
          | mk kind line => rw [ho] at this; simp only at this; subst this; rfl
  have hns : f.subset ∉ s.seen := by
    intro hs
    have h0 := hr.seen_zero h.ok hind _ hs
    have := dict_cand h.ok.trie cs.lower [] s.rest s.prev hf
    simp only [Resolved.subset] at h0
    omega
  refine Nat.le_trans hle ?_
  cases hch with
  | nocross _ hall => exact hall f hfc hns
  | rule _ _ hall _ => exact hall f hfc hns
  | plain _ hall _ _ => exact absurd (hall f hfc) hns

end Louis
