import Verif.Spec.HashOrder
import Verif.Props.MainRun

/-!
# C41: the order of hash maps
-/

namespace Louis

theorem heaviest_join (l l' : List Resolved) : heaviest (l ++ l') = match heaviest l', heaviest l with
    | none, x => x
    | some b, none => some b
    | some b, some a => if a.weight ≤ b.weight then some b else some a := by
  suffices ∀ (n : Nat) (l' : List Resolved), l'.length = n → heaviest (l ++ l') = match heaviest l', heaviest l with
    | none, x => x
    | some b, none => some b
    | some b, some a => if a.weight ≤ b.weight then some b else some a from this _ l' rfl
  intro n
  induction n with
  | zero => intro l' h; rw [List.length_eq_zero_iff.1 h, List.append_nil]; rfl
  | succ n ih =>
    intro l' h
    rcases List.eq_nil_or_concat l' with rfl | ⟨u, y, rfl⟩
    · cases h
    · rw [List.concat_eq_append] at h ⊢
      simp only [List.length_append, List.length_singleton] at h
      rw [← List.append_assoc, heaviest_append, heaviest_append, ih u (by omega)]
      cases heaviest u <;> cases heaviest l <;> grind

/-- If no two are heaviest, the order of a list does not matter. -/
theorem heaviest_same {l l' : List Resolved} (hm : ∀ o, o ∈ l ↔ o ∈ l') (h : OneHeaviest (· ∈ l)) : heaviest l = heaviest l' := by
  cases e : heaviest l with
  | none =>
    rw [heaviest_none] at e
    have : l' = [] := by
      rw [List.eq_nil_iff_forall_not_mem]
      intro o ho
      rw [← hm, e] at ho
      cases ho
    rw [this]; rfl
  | some a =>
    cases e' : heaviest l' with
    | none =>
      rw [heaviest_none] at e'
      have := (hm a).1 (heaviest_mem e)
      rw [e'] at this
      cases this
    | some b =>
      rw [h a b (heaviest_mem e) ((hm b).2 (heaviest_mem e')) (heaviest_max e)
        (fun x hx => heaviest_max e' x ((hm x).1 hx))]

theorem OneHeaviest.congr {P Q : Resolved → Prop} (h : OneHeaviest P) (hpq : ∀ o, P o ↔ Q o) : OneHeaviest Q := by
  have : P = Q := funext fun o => propext (hpq o)
  rwa [← this]

theorem digitsFirst_filter (T : MainTable) (flags : Constraints) (place : Nat) (rest : Text) (l : List Resolved) :
    ∃ F, ∀ l', T.digitsFirst flags place rest (l' ++ l) =
      l'.filter (fun o => !(decide (T.dir = .backward ∧ flags.preferDigit place = true) &&
        (rest.head?.bind fun c => T.digits.find? (·.1 == c)).isSome && o.length == 1)) ++ F := by
  unfold MainTable.digitsFirst
  by_cases h : T.dir = .backward ∧ flags.preferDigit place = true
  · simp only [h, and_self, if_true]
    cases e : rest.head?.bind fun c => T.digits.find? (·.1 == c) with
    | none =>
      refine ⟨l, fun l' => ?_⟩
      have e' : (rest.head?.bind fun c => (T.digits.find? (·.1 == c)).map (·.2)) = none := by
        cases rest with
        | nil => rfl
        | cons c _ =>
          simp only [List.head?_cons, Option.bind_some] at e ⊢
          rw [e]; rfl
      rw [e']
      simp only [Option.isSome_none, Bool.and_false, Bool.false_and, Bool.not_false]
      rw [List.filter_eq_self.2 (fun _ _ => rfl)]
    | some q =>
      refine ⟨l.filter (·.length != 1) ++ [q.2], fun l' => ?_⟩
      have e' : (rest.head?.bind fun c => (T.digits.find? (·.1 == c)).map (·.2)) = some q.2 := by
        cases rest with
        | nil => cases e
        | cons c _ =>
          simp only [List.head?_cons, Option.bind_some] at e ⊢
          rw [e]; rfl
      rw [e']
      simp only [List.filter_append, List.append_assoc]
      congr 1
  · refine ⟨l, fun l' => ?_⟩
    rw [if_neg h]
    congr 1
    rw [eq_comm, List.filter_eq_self]
    intro o _
    simp [h]

/-- Where no two replacements compete, the next item does not depend on the order of hash maps. -/
theorem MainTable.Untied.next_eq {T : MainTable} {lower : Char → List Char} {flags : Constraints} {input : Text} {made : List Made}
    (h : T.Untied lower flags input made) {L L' : Listing} (hL : T.Lists lower L) (hL' : T.Lists lower L') :
    T.next L lower flags input made = T.next L' lower flags input made := by
  have hu : T.bestUnbroken L flags input made = T.bestUnbroken L' flags input made := by
    unfold MainTable.bestUnbroken
    rw [lastHeaviest_eq, lastHeaviest_eq]
    refine heaviest_same (fun o => ?_) (h.unbroken.congr fun o => ?_)
    · simp only [List.mem_filter, hL.unbroken, hL'.unbroken]
    · simp only [List.mem_filter, hL.unbroken]
      simp
  have hb : T.best L lower flags input made = T.best L' lower flags input made := by
    unfold MainTable.best
    rw [lastHeaviest_eq, lastHeaviest_eq]
    unfold MainTable.choices
    cases hc : flags.useComp6 (placeOf made) with
    | true =>
      simp only [hc, if_true]
      refine heaviest_same (fun o => ?_) ((h.computer hc).congr fun o => ?_)
      · simp only [List.mem_filter, hL.computer, hL'.computer]
      · simp only [List.mem_filter, hL.computer]
        simp
    | false =>
      simp only [hc, Bool.false_eq_true, if_false, List.append_assoc, List.filter_append]
      obtain ⟨F, hF⟩ := digitsFirst_filter T flags (placeOf made) (input.drop (placeOf made))
        ((List.filter (allowedHere flags (placeOf made)) ((T.offers lower input (itemsOf made)).filter (·.offset == 0))) ++
          List.filter (allowedHere flags (placeOf made)) (fromEarlier (T.offers lower input) (itemsOf made)))
      simp only [hF, List.filter_append]
      rw [heaviest_join, heaviest_join]
      have this : ∀ L, T.Lists lower L → ∀ o, o ∈ ((((L.entries (input.drop (placeOf made))
          (dealtWith (itemsOf made)).getLast?).filter (allowedHere flags (placeOf made))).filter (fun o =>
              !(decide (T.dir = .backward ∧ flags.preferDigit (placeOf made) = true) &&
              ((input.drop (placeOf made)).head?.bind fun c => T.digits.find? (·.1 == c)).isSome && o.length == 1))).filter
            (fun o => !flags.dontContract (placeOf made) || decide (o.length ≤ 1))).filter
            (fun o => !(spentOn made).contains o.subset) ↔
            T.Offers lower T.entries (input.drop (placeOf made)) (dealtWith (itemsOf made)).getLast? o ∧
              T.mayBeUsed flags input made o = true := by
        intro L hL o
        simp only [List.mem_filter, hL.entries, MainTable.mayBeUsed, Bool.and_eq_true, and_assoc]
      rw [heaviest_same (fun o => (this L hL o).trans (this L' hL' o).symm) ((h.entries hc).congr fun o => (this L hL o).symm)]
  unfold MainTable.next
  rw [hu, hb]

/-- **C41.** If there is a run of the stage along which no two different replacements compete, every translator compiled from
the table makes the same trace: it does not depend on the order in which hash maps are listed. -/
theorem C41_untied (ctx : PrimCtx) (d : Direction) (ops : List PrimOp) (hp : (mainTable ctx d ops).Plain) (cs : Case)
    (flags : Constraints) (signs : Nat → List Resolved) (hsigns : ∀ p, ∀ r ∈ signs p, r.input = []) (input : Text)
    (L : Listing) (hL : (mainTable ctx d ops).Lists cs.lower L) (made : List Made)
    (hr : (mainTable ctx d ops).Run L cs.lower flags input made)
    (hu : ∀ i ≤ made.length, (mainTable ctx d ops).Untied cs.lower flags input (made.take i))
    (t : PrimaryTable) (hb : Built ctx d ops t) (ts : List Resolved) :
    t.Traces cs flags signs input ts ↔ ts = (mainTable ctx d ops).trace cs flags signs made := by
  obtain ⟨L', hL', made', -, hun, hiff⟩ := C73_main_exact ctx d ops t hb hp cs flags signs hsigns input
  have : made = made' := by
    refine hun made ⟨fun i hi => ?_, ?_⟩
    · rw [← (hu i (by omega)).next_eq hL hL']; exact hr.each i hi
    · have := (hu made.length (Nat.le_refl _)).next_eq hL hL'
      rw [List.take_length] at this
      rw [← this]; exact hr.last
  rw [hiff, this]


/-! ## Tables without conditions -/

/-- The entry is for its text wherever it occurs: neither its neighbours nor its place in a word matter. -/
def TrieRule.Anywhere (e : TrieRule) : Prop := e.before = none ∧ e.after = none ∧ e.constraints = []

theorem TrieRule.Anywhere.path_eq {e : TrieRule} (h : e.Anywhere) (ctx : CharClasses) (d : Direction) :
    e.path ctx d = (e.from d).map .char := by
  obtain ⟨h1, h2, h3⟩ := h
  simp [TrieRule.path, h1, h2, h3, startPath, stopPath]

theorem TrieRule.Anywhere.weight_eq {e : TrieRule} (h : e.Anywhere) (d : Direction) : e.weight d = (e.from d).length := by
  obtain ⟨h1, h2, h3⟩ := h
  simp [TrieRule.weight, h1, h2, h3]

theorem chars_inj {a b : Text} (h : a.map RTrans.char = b.map RTrans.char) : a = b := by
  induction a generalizing b with
  | nil => cases b with
    | nil => rfl
    | cons y b => cases h
  | cons x a ih => cases b with
    | nil => cases h
    | cons y b =>
      simp only [List.map_cons, List.cons.injEq, RTrans.char.injEq] at h
      rw [h.1, ih h.2]

/-- Two words that are spelled at the same place and are equally long are the same. -/
theorem Spells.same {lower : Char → List Char} {x w : Text} (h : Spells lower x w) : ∀ {x' w' r r' : Text},
    Spells lower x' w' → x ++ r = x' ++ r' → w.length = w'.length → w = w' := by
  induction h with
  | nil =>
    intro x' w' r r' h' _ hl
    cases h' with
    | nil => rfl
    | cons => cases hl
  | cons hc hs ih =>
    intro x' w' r r' h' e hl
    cases h' with
    | nil => cases hl
    | cons hc' hs' =>
      simp only [List.cons_append, List.cons.injEq] at e
      simp only [List.length_cons, Nat.add_right_cancel_iff] at hl
      obtain ⟨rfl, e⟩ := e
      rw [hc] at hc'
      injection hc' with hc' _
      rw [hc', ih hs' e hl]

theorem keptOf_weight {d : Direction} {l : List TrieRule} {w : Text} {o : Resolved} (h : keptOf d l = some o)
    (hl : ∀ e ∈ l, e.Anywhere ∧ e.from d = w) : o.weight = w.length := by
  cases l with
  | nil => cases h
  | cons e es =>
    simp only [keptOf, Option.some.injEq] at h
    split at h
    · next x hx =>
      have hx : x ∈ es := (List.mem_filter.1 (List.mem_of_getLast? hx)).1
      rw [← h]
      simp only [Resolved.new]
      rw [(hl x (List.mem_cons_of_mem _ hx)).2]
    · rw [← h]
      simp only [Resolved.new]
      rw [(hl e (List.mem_cons_self ..)).1.weight_eq, (hl e (List.mem_cons_self ..)).2]

/-- Entries without conditions do not compete. -/
theorem offers_unique {T : MainTable} {lower : Char → List Char} {entries : List TrieRule} (h : ∀ e ∈ entries, e.Anywhere)
    {rest : Text} {prev : Option Char} {o o' : Resolved} (ho : T.Offers lower entries rest prev o)
    (ho' : T.Offers lower entries rest prev o') (hw : o.weight = o'.weight) : o = o' := by
  obtain ⟨e, he, ⟨x, r, e1, s1, -⟩, k1⟩ := ho
  obtain ⟨e', he', ⟨x', r', e2, s2, -⟩, k2⟩ := ho'
  have key : ∀ e ∈ entries, ∀ e' ∈ entries.filter (fun e' => e'.path T.neighbours T.dir = e.path T.neighbours T.dir),
      e'.Anywhere ∧ e'.from T.dir = e.from T.dir := by
    intro e he e' he'
    simp only [List.mem_filter, decide_eq_true_eq] at he'
    rw [(h e he).path_eq, (h e' he'.1).path_eq] at he'
    exact ⟨h e' he'.1, chars_inj he'.2⟩
  rw [keptOf_weight k1 (key e he), keptOf_weight k2 (key e' he')] at hw
  have : e.from T.dir = e'.from T.dir := s1.same s2 (e1.symm.trans e2) hw
  rw [(h e he).path_eq, this, ← (h e' he').path_eq, k2] at k1
  exact (Option.some.inj k1).symm

theorem MainTable.untied {T : MainTable} (h1 : ∀ e ∈ T.entries, e.Anywhere) (h2 : ∀ e ∈ T.unbroken, e.Anywhere)
    (h3 : ∀ e ∈ T.computer, e.Anywhere) (lower : Char → List Char) (flags : Constraints) (input : Text) (made : List Made) :
    T.Untied lower flags input made where
  entries _ o o' h h' m m' := offers_unique h1 h.1 h'.1 (Nat.le_antisymm (m' o h) (m o' h'))
  computer _ o o' h h' m m' := offers_unique h3 h.1 h'.1 (Nat.le_antisymm (m' o h) (m o' h'))
  unbroken o o' h h' m m' := offers_unique h2 h.1 h'.1 (Nat.le_antisymm (m' o h) (m o' h'))

/-- **C41.** A main stage whose dictionary entries have no conditions is a function of the text: the order of hash maps does
not matter, whatever `match` and `context` lines there are. -/
theorem C41_unconditioned (ctx : PrimCtx) (d : Direction) (ops : List PrimOp) (hp : (mainTable ctx d ops).Plain)
    (h1 : ∀ e ∈ (mainTable ctx d ops).entries, e.Anywhere) (h2 : ∀ e ∈ (mainTable ctx d ops).unbroken, e.Anywhere)
    (h3 : ∀ e ∈ (mainTable ctx d ops).computer, e.Anywhere) (cs : Case)
    (flags : Constraints) (signs : Nat → List Resolved) (hsigns : ∀ p, ∀ r ∈ signs p, r.input = []) (input : Text)
    (t t' : PrimaryTable) (hb : Built ctx d ops t) (hb' : Built ctx d ops t') (ts : List Resolved) :
    t.Traces cs flags signs input ts ↔ t'.Traces cs flags signs input ts := by
  obtain ⟨L, hL, made, hr, -, hiff⟩ := C73_main_exact ctx d ops t hb hp cs flags signs hsigns input
  rw [hiff, C41_untied ctx d ops hp cs flags signs hsigns input L hL made hr (fun i _ => MainTable.untied h1 h2 h3 _ _ _ _) t' hb']

end Louis
