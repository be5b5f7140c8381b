import Verif.Lemmas.Run

/-! The code emitted for a regular expression. -/

namespace Louis.Regexp

/-- `n` consecutive code fragments. -/
def FragN (F : Nat → Nat → Prop) : Nat → Nat → Nat → Prop
  | 0, a, b => b = a
  | n + 1, a, b => ∃ m, F a m ∧ FragN F n m b

/-- The instructions of `is` at `[a, b)` are the code of the expression. -/
def Frag (is : List Instr) (cl : List (List Char)) : Regexp → Nat → Nat → Prop
  | .literal c, a, b => is[a]? = some (.char c) ∧ b = a + 1
  | .concat l r, a, b => ∃ m, Frag is cl l a m ∧ Frag is cl r m b
  | .either l r, a, b => ∃ m, is[a]? = some (.split (a + 1) (m + 1)) ∧ Frag is cl l (a + 1) m ∧
      is[m]? = some (.jump b) ∧ Frag is cl r (m + 1) b
  | .optional r, a, b => is[a]? = some (.split (a + 1) b) ∧ Frag is cl r (a + 1) b
  | .zeroOrMore r, a, b => ∃ m, is[a]? = some (.split (a + 1) b) ∧ Frag is cl r (a + 1) m ∧
      is[m]? = some (.jump a) ∧ b = m + 1
  | .oneOrMore r, a, b => ∃ m, Frag is cl r a m ∧ is[m]? = some (.split a (m + 1)) ∧ b = m + 1
  | .any, a, b => is[a]? = some .any ∧ b = a + 1
  | .cls cs, a, b => ∃ k, is[a]? = some (.cls k) ∧ cl[k]? = some cs ∧ b = a + 1
  | .notCls cs, a, b => ∃ k, is[a]? = some (.notCls k) ∧ cl[k]? = some cs ∧ b = a + 1
  | .repeatExactly n r, a, b => FragN (Frag is cl r) n a b
  | .repeatAtLeast n r, a, b => ∃ p m, FragN (Frag is cl r) n a p ∧ is[p]? = some (.split (p + 1) b) ∧
      Frag is cl r (p + 1) m ∧ is[m]? = some (.jump p) ∧ b = m + 1
  | .repeatAtLeastAtMost n k r, a, b => ∃ p m, FragN (Frag is cl r) n a p ∧ is[p]? = some (.split (p + 1) b) ∧
      FragN (Frag is cl r) (k - n) (p + 1) m ∧ is[m]? = some (.jump p) ∧ b = m + 1
  | .capture r, a, b => ∃ m, is[a]? = some .captureStart ∧ Frag is cl r (a + 1) m ∧
      is[m]? = some .captureEnd ∧ b = m + 1
  | .string s, a, b => (∀ j, j < s.length → is[a + j]? = (s.map Instr.char)[j]?) ∧ b = a + s.length
  | .notString s, a, b => (∀ j, j < s.length → is[a + j]? = (s.map Instr.notChar)[j]?) ∧ b = a + s.length
  | .ciString s, a, b => (∀ j, j < s.length → is[a + j]? = (s.map Instr.ciChar)[j]?) ∧ b = a + s.length
  | .varEq i v, a, b => is[a]? = some (.varEq i v) ∧ b = a + 1
  | .notVarEq i v, a, b => is[a]? = some (.notVarEq i v) ∧ b = a + 1
  | .group r, a, b => Frag is cl r a b
  | .empty, a, b => b = a
  | .endAnchor, a, b => is[a]? = some .assertEnd ∧ b = a + 1
  | .notEndAnchor, a, b => is[a]? = some .assertMoreInput ∧ b = a + 1
  | .startAnchor, a, b => is[a]? = some .assertStart ∧ b = a + 1
  | .notStartAnchor, a, b => is[a]? = some .assertNotStart ∧ b = a + 1
  | .never, a, b => is[a]? = some .fail ∧ b = a + 1

theorem FragN.le {F : Nat → Nat → Prop} (h : ∀ a b, F a b → a ≤ b) : ∀ {n a b}, FragN F n a b → a ≤ b
  | 0, _, _, hf => by simp [FragN] at hf; omega
  | n + 1, _, _, ⟨m, h1, h2⟩ => by have := h _ _ h1; have := FragN.le h h2; omega

theorem Frag.le {is cl} : ∀ {r : Regexp} {a b : Nat}, Frag is cl r a b → a ≤ b := by
  intro r
  induction r with
  | concat l r ihl ihr => rintro a b ⟨m, h1, h2⟩; have := ihl h1; have := ihr h2; omega
  | either l r ihl ihr => rintro a b ⟨m, _, h1, _, h2⟩; have := ihl h1; have := ihr h2; omega
  | optional r ih => rintro a b ⟨_, h⟩; have := ih h; omega
  | zeroOrMore r ih => rintro a b ⟨m, _, h, _, rfl⟩; have := ih h; omega
  | oneOrMore r ih => rintro a b ⟨m, h, _, rfl⟩; have := ih h; omega
  | repeatExactly n r ih => rintro a b h; exact FragN.le (fun _ _ => ih) h
  | repeatAtLeast n r ih =>
    rintro a b ⟨p, m, h1, _, h2, _, rfl⟩; have := FragN.le (fun _ _ => ih) h1; have := ih h2; omega
  | repeatAtLeastAtMost n k r ih =>
    rintro a b ⟨p, m, h1, _, h2, _, rfl⟩
    have := FragN.le (fun _ _ => ih) h1; have := FragN.le (fun _ _ => ih) h2; omega
  | capture r ih => rintro a b ⟨m, _, h, _, rfl⟩; have := ih h; omega
  | group r ih => intro a b h; exact ih h
  | cls => rintro a b ⟨k, _, _, rfl⟩; omega
  | notCls => rintro a b ⟨k, _, _, rfl⟩; omega
  | empty => intro a b h; simp [Frag] at h; omega
  | _ => rintro a b ⟨_, rfl⟩; omega

/-- `is'`/`cl'` agree with `is`/`cl` on `[a, b)` and on the classes that exist. -/
structure Agree (is is' : List Instr) (cl cl' : List (List Char)) (a b : Nat) : Prop where
  instrs : ∀ i : Nat, a ≤ i → i < b → is'[i]? = is[i]?
  classes : ∀ (k : Nat) (cs : List Char), cl[k]? = some cs → cl'[k]? = some cs

theorem Agree.sub {is is' cl cl' a b a' b'} (h : Agree is is' cl cl' a b) (h1 : a ≤ a') (h2 : b' ≤ b) :
    Agree is is' cl cl' a' b' := ⟨fun i hi hi' => h.instrs i (by omega) (by omega), h.classes⟩

theorem FragN.agree {F F' : Nat → Nat → Prop} {lo hi : Nat} (hle : ∀ a b, F a b → a ≤ b)
    (h : ∀ a b, F a b → lo ≤ a → b ≤ hi → F' a b) :
    ∀ {n a b}, FragN F n a b → lo ≤ a → b ≤ hi → FragN F' n a b
  | 0, _, _, hf, _, _ => hf
  | n + 1, a, b, ⟨m, h1, h2⟩, hlo, hhi => by
    have hm := hle _ _ h1
    have hb := FragN.le hle h2
    exact ⟨m, h _ _ h1 hlo (by omega), FragN.agree hle h h2 (by omega) hhi⟩

theorem Frag.agree {is is' cl cl'} : ∀ {r : Regexp} {a b : Nat}, Frag is cl r a b →
    Agree is is' cl cl' a b → Frag is' cl' r a b := by
  intro r
  induction r with
  | concat l r ihl ihr =>
    rintro a b ⟨m, h1, h2⟩ hag
    have := h1.le; have := h2.le
    exact ⟨m, ihl h1 (hag.sub (by omega) (by omega)), ihr h2 (hag.sub (by omega) (by omega))⟩
  | either l r ihl ihr =>
    rintro a b ⟨m, h0, h1, hj, h2⟩ hag
    have := h1.le; have := h2.le
    exact ⟨m, by rw [hag.instrs a (by omega) (by omega)]; exact h0, ihl h1 (hag.sub (by omega) (by omega)),
      by rw [hag.instrs m (by omega) (by omega)]; exact hj, ihr h2 (hag.sub (by omega) (by omega))⟩
  | optional r ih =>
    rintro a b ⟨h0, h1⟩ hag
    have := h1.le
    exact ⟨by rw [hag.instrs a (by omega) (by omega)]; exact h0, ih h1 (hag.sub (by omega) (by omega))⟩
  | zeroOrMore r ih =>
    rintro a b ⟨m, h0, h1, hj, rfl⟩ hag
    have := h1.le
    exact ⟨m, by rw [hag.instrs a (by omega) (by omega)]; exact h0, ih h1 (hag.sub (by omega) (by omega)),
      by rw [hag.instrs m (by omega) (by omega)]; exact hj, rfl⟩
  | oneOrMore r ih =>
    rintro a b ⟨m, h1, hj, rfl⟩ hag
    have := h1.le
    exact ⟨m, ih h1 (hag.sub (by omega) (by omega)), by rw [hag.instrs m (by omega) (by omega)]; exact hj, rfl⟩
  | repeatExactly n r ih =>
    rintro a b h hag
    exact FragN.agree (lo := a) (hi := b) (fun _ _ => Frag.le)
      (fun x y hxy h1 h2 => ih hxy (hag.sub h1 h2)) h (by omega) (by omega)
  | repeatAtLeast n r ih =>
    rintro a b ⟨p, m, h1, h0, h2, hj, rfl⟩ hag
    have hap := FragN.le (fun _ _ => Frag.le) h1
    have := h2.le
    refine ⟨p, m, FragN.agree (lo := a) (hi := p) (fun _ _ => Frag.le)
      (fun x y hxy h1 h2 => ih hxy (hag.sub h1 (by omega))) h1 (by omega) (by omega), ?_, ih h2 (hag.sub (by omega) (by omega)), ?_, rfl⟩
    · rw [hag.instrs p (by omega) (by omega)]; exact h0
    · rw [hag.instrs m (by omega) (by omega)]; exact hj
  | repeatAtLeastAtMost n k r ih =>
    rintro a b ⟨p, m, h1, h0, h2, hj, rfl⟩ hag
    have hap := FragN.le (fun _ _ => Frag.le) h1
    have hpm := FragN.le (fun _ _ => Frag.le) h2
    refine ⟨p, m, FragN.agree (lo := a) (hi := p) (fun _ _ => Frag.le)
      (fun x y hxy h1 h2 => ih hxy (hag.sub h1 (by omega))) h1 (by omega) (by omega), ?_,
      FragN.agree (lo := p + 1) (hi := m) (fun _ _ => Frag.le)
      (fun x y hxy h1 h2 => ih hxy (hag.sub (by omega) (by omega))) h2 (by omega) (by omega), ?_, rfl⟩
    · rw [hag.instrs p (by omega) (by omega)]; exact h0
    · rw [hag.instrs m (by omega) (by omega)]; exact hj
  | capture r ih =>
    rintro a b ⟨m, h0, h1, hj, rfl⟩ hag
    have := h1.le
    exact ⟨m, by rw [hag.instrs a (by omega) (by omega)]; exact h0, ih h1 (hag.sub (by omega) (by omega)),
      by rw [hag.instrs m (by omega) (by omega)]; exact hj, rfl⟩
  | group r ih => intro a b h hag; exact ih h hag
  | cls cs =>
    rintro a b ⟨k, h0, hk, rfl⟩ hag
    exact ⟨k, by rw [hag.instrs a (by omega) (by omega)]; exact h0, hag.classes _ _ hk, rfl⟩
  | notCls cs =>
    rintro a b ⟨k, h0, hk, rfl⟩ hag
    exact ⟨k, by rw [hag.instrs a (by omega) (by omega)]; exact h0, hag.classes _ _ hk, rfl⟩
  | empty => intro a b h _; exact h
  | string s =>
    rintro a b ⟨h, rfl⟩ hag
    exact ⟨fun j hj => by rw [hag.instrs (a + j) (by omega) (by omega)]; exact h j hj, rfl⟩
  | notString s =>
    rintro a b ⟨h, rfl⟩ hag
    exact ⟨fun j hj => by rw [hag.instrs (a + j) (by omega) (by omega)]; exact h j hj, rfl⟩
  | ciString s =>
    rintro a b ⟨h, rfl⟩ hag
    exact ⟨fun j hj => by rw [hag.instrs (a + j) (by omega) (by omega)]; exact h j hj, rfl⟩
  | _ =>
    rintro a b ⟨h0, rfl⟩ hag
    exact ⟨by rw [hag.instrs a (by omega) (by omega)]; exact h0, rfl⟩

/-- What emitting does to the two vectors: it only appends. -/
structure Appends (o o' : Out) : Prop where
  len : o.instrs.length ≤ o'.instrs.length
  instrs : ∀ i : Nat, i < o.instrs.length → o'.instrs[i]? = o.instrs[i]?
  classes : ∀ (k : Nat) (cs : List Char), o.classes[k]? = some cs → o'.classes[k]? = some cs

theorem Appends.refl (o : Out) : Appends o o := ⟨Nat.le_refl _, fun _ _ => rfl, fun _ _ h => h⟩

theorem Appends.trans {o o' o''} (h : Appends o o') (h' : Appends o' o'') : Appends o o'' :=
  ⟨Nat.le_trans h.len h'.len, fun i hi => by rw [h'.instrs i (Nat.lt_of_lt_of_le hi h.len), h.instrs i hi],
    fun k cs hk => h'.classes k cs (h.classes k cs hk)⟩

theorem Appends.push (o : Out) (i : Instr) : Appends o (o.push i) := by
  refine ⟨by simp [Out.push], ?_, fun _ _ h => h⟩
  intro j hj; simp [Out.push, List.getElem?_append_left hj]

theorem push_last (o : Out) (i : Instr) : (o.push i).instrs[o.instrs.length]? = some i := by
  simp [Out.push]

@[simp] theorem push_length (o : Out) (i : Instr) : (o.push i).instrs.length = o.instrs.length + 1 := by
  simp [Out.push]

@[simp] theorem patch_length (o : Out) (p : Nat) (i : Instr) : (o.patch p i).instrs.length = o.instrs.length := by
  simp [Out.patch]

theorem patch_at (o : Out) (p : Nat) (i : Instr) (h : p < o.instrs.length) : (o.patch p i).instrs[p]? = some i := by
  simp [Out.patch, h]

theorem patch_other (o : Out) (p : Nat) (i : Instr) (j : Nat) (h : j ≠ p) :
    (o.patch p i).instrs[j]? = o.instrs[j]? := by
  simp only [Out.patch, List.getElem?_set]
  have : ¬ p = j := fun e => h e.symm
  simp [this]

/-- Patching inside the appended part keeps the prefix. -/
theorem Appends.patch {o o' : Out} {p : Nat} (h : Appends o o') (hp : o.instrs.length ≤ p) (i : Instr) :
    Appends o (o'.patch p i) := by
  refine ⟨by simpa using h.len, ?_, h.classes⟩
  intro j hj; rw [patch_other _ _ _ _ (by omega)]; exact h.instrs j hj

theorem Appends.agree {o o' : Out} (h : Appends o o') (a : Nat) :
    Agree o.instrs o'.instrs o.classes o'.classes a o.instrs.length :=
  ⟨fun i _ hi => h.instrs i hi, h.classes⟩

theorem Agree.patch {is : List Instr} {cl cl' : List (List Char)} {o : Out} {a b p : Nat} (i : Instr)
    (h : Agree is o.instrs cl cl' a b) (hp : p < a ∨ b ≤ p) : Agree is (o.patch p i).instrs cl cl' a b :=
  ⟨fun j h1 h2 => by rw [patch_other _ _ _ _ (by omega)]; exact h.instrs j h1 h2, h.classes⟩

theorem repeatN_spec {r : Regexp}
    (ih : ∀ o, Appends o (emit r o) ∧
      Frag (emit r o).instrs (emit r o).classes r o.instrs.length (emit r o).instrs.length) :
    ∀ (n : Nat) (o : Out), Appends o (repeatN (emit r) n o) ∧
      FragN (Frag (repeatN (emit r) n o).instrs (repeatN (emit r) n o).classes r) n o.instrs.length
        (repeatN (emit r) n o).instrs.length := by
  intro n
  induction n with
  | zero => intro o; exact ⟨Appends.refl o, rfl⟩
  | succ n IH =>
    intro o
    obtain ⟨a1, f1⟩ := ih o
    obtain ⟨a2, f2⟩ := IH (emit r o)
    exact ⟨a1.trans a2, (emit r o).instrs.length, f1.agree (a2.agree _), f2⟩

theorem emit_chars (o : Out) (f : Char → Instr) (s : List Char) :
    Appends o { o with instrs := o.instrs ++ s.map f } ∧
    (∀ j, j < s.length → (o.instrs ++ s.map f)[o.instrs.length + j]? = (s.map f)[j]?) := by
  refine ⟨⟨by simp, ?_, fun _ _ h => h⟩, ?_⟩
  · intro i hi; simp [List.getElem?_append_left hi]
  · intro j _; simp [List.getElem?_append_right]

/-- The compiler emits the code of the expression at the end of the vectors. -/
theorem emit_spec : ∀ (r : Regexp) (o : Out), Appends o (emit r o) ∧
    Frag (emit r o).instrs (emit r o).classes r o.instrs.length (emit r o).instrs.length := by
  intro r
  induction r with
  | literal c => intro o; exact ⟨.push o _, push_last o _, push_length o _⟩
  | any => intro o; exact ⟨.push o _, push_last o _, push_length o _⟩
  | varEq i v => intro o; exact ⟨.push o _, push_last o _, push_length o _⟩
  | notVarEq i v => intro o; exact ⟨.push o _, push_last o _, push_length o _⟩
  | endAnchor => intro o; exact ⟨.push o _, push_last o _, push_length o _⟩
  | notEndAnchor => intro o; exact ⟨.push o _, push_last o _, push_length o _⟩
  | startAnchor => intro o; exact ⟨.push o _, push_last o _, push_length o _⟩
  | notStartAnchor => intro o; exact ⟨.push o _, push_last o _, push_length o _⟩
  | never => intro o; exact ⟨.push o _, push_last o _, push_length o _⟩
  | empty => intro o; exact ⟨.refl o, rfl⟩
  | group r ih => intro o; exact ih o
  | string s => intro o; exact ⟨(emit_chars o _ s).1, (emit_chars o _ s).2, by simp [emit]⟩
  | notString s => intro o; exact ⟨(emit_chars o _ s).1, (emit_chars o _ s).2, by simp [emit]⟩
  | ciString s => intro o; exact ⟨(emit_chars o _ s).1, (emit_chars o _ s).2, by simp [emit]⟩
  | cls cs =>
    intro o
    refine ⟨⟨by simp [emit], ?_, ?_⟩, o.classes.length, by simp [emit], by simp [emit], by simp [emit]⟩
    · intro i hi; simp [emit, List.getElem?_append_left hi]
    · intro k c hk
      have : k < o.classes.length := by
        rcases Nat.lt_or_ge k o.classes.length with h | h
        · exact h
        · rw [List.getElem?_eq_none h] at hk; cases hk
      simp [emit, List.getElem?_append_left this, hk]
  | notCls cs =>
    intro o
    refine ⟨⟨by simp [emit], ?_, ?_⟩, o.classes.length, by simp [emit], by simp [emit], by simp [emit]⟩
    · intro i hi; simp [emit, List.getElem?_append_left hi]
    · intro k c hk
      have : k < o.classes.length := by
        rcases Nat.lt_or_ge k o.classes.length with h | h
        · exact h
        · rw [List.getElem?_eq_none h] at hk; cases hk
      simp [emit, List.getElem?_append_left this, hk]
  | concat l r ihl ihr =>
    intro o
    obtain ⟨a1, f1⟩ := ihl o
    obtain ⟨a2, f2⟩ := ihr (emit l o)
    exact ⟨a1.trans a2, _, f1.agree (a2.agree _), f2⟩
  | either l r ihl ihr =>
    intro o
    simp only [emit]
    generalize ho1 : o.push (.split (o.instrs.length + 1) 0) = o1
    have a1 : Appends o o1 := by rw [← ho1]; exact .push _ _
    have l1 : o1.instrs.length = o.instrs.length + 1 := by simp [← ho1]
    obtain ⟨a2, f2⟩ := ihl o1
    generalize ho2 : emit l o1 = o2 at a2 f2 ⊢
    generalize ho3 : (o2.push (.jump 0)).patch o.instrs.length
      (.split (o.instrs.length + 1) (o2.instrs.length + 1)) = o3
    have l3 : o3.instrs.length = o2.instrs.length + 1 := by simp [← ho3]
    have hl2 := a2.len
    have a3 : Appends o o3 := by
      rw [← ho3]; exact ((a1.trans a2).trans (.push _ _)).patch (Nat.le_refl _) _
    obtain ⟨a4, f4⟩ := ihr o3
    generalize ho4 : emit r o3 = o4 at a4 f4 ⊢
    have hl4 := a4.len
    have a5 : Appends o (o4.patch o2.instrs.length (.jump o4.instrs.length)) :=
      (a3.trans a4).patch (by omega) _
    refine ⟨a5, o2.instrs.length, ?_, ?_, ?_, ?_⟩
    · rw [patch_other _ _ _ _ (by omega), a4.instrs _ (by omega), ← ho3, patch_at _ _ _ (by simp; omega)]
    · have hag : Agree o2.instrs o4.instrs o2.classes o4.classes (o.instrs.length + 1) o2.instrs.length := by
        refine ⟨fun i h1 h2 => ?_, fun k cs hk => a4.classes k cs (by rw [← ho3]; exact hk)⟩
        rw [a4.instrs _ (by omega), ← ho3, patch_other _ _ _ _ (by omega),
          (Appends.push o2 _).instrs i (by omega)]
      rw [l1] at f2
      exact f2.agree (hag.patch _ (Or.inr (Nat.le_refl _)))
    · simp only [patch_length]; rw [patch_at _ _ _ (by omega)]
    · have hag : Agree o4.instrs o4.instrs o4.classes o4.classes o3.instrs.length o4.instrs.length :=
        ⟨fun _ _ _ => rfl, fun _ _ h => h⟩
      rw [l3] at f4 hag
      simp only [patch_length]
      exact f4.agree (hag.patch _ (Or.inl (by omega)))
  | optional r ih =>
    intro o
    simp only [emit]
    generalize ho1 : o.push (.split (o.instrs.length + 1) 0) = o1
    have a1 : Appends o o1 := by rw [← ho1]; exact .push _ _
    have l1 : o1.instrs.length = o.instrs.length + 1 := by simp [← ho1]
    obtain ⟨a2, f2⟩ := ih o1
    generalize ho2 : emit r o1 = o2 at a2 f2 ⊢
    have hl2 := a2.len
    refine ⟨(a1.trans a2).patch (Nat.le_refl _) _, ?_, ?_⟩
    · simp only [patch_length]; rw [patch_at _ _ _ (by omega)]
    · have hag : Agree o2.instrs o2.instrs o2.classes o2.classes o1.instrs.length o2.instrs.length :=
        ⟨fun _ _ _ => rfl, fun _ _ h => h⟩
      rw [l1] at f2 hag
      simp only [patch_length]
      exact f2.agree (hag.patch _ (Or.inl (by omega)))
  | zeroOrMore r ih =>
    intro o
    simp only [emit]
    generalize ho1 : o.push (.split (o.instrs.length + 1) 0) = o1
    have a1 : Appends o o1 := by rw [← ho1]; exact .push _ _
    have l1 : o1.instrs.length = o.instrs.length + 1 := by simp [← ho1]
    obtain ⟨a2, f2⟩ := ih o1
    generalize ho2 : emit r o1 = o2 at a2 f2 ⊢
    have hl2 := a2.len
    have a3 := Appends.push o2 (.jump o.instrs.length)
    refine ⟨((a1.trans a2).trans a3).patch (Nat.le_refl _) _, o2.instrs.length, ?_, ?_, ?_, by simp⟩
    · simp only [patch_length]; rw [patch_at _ _ _ (by simp; omega)]
    · rw [l1] at f2
      exact f2.agree ((a3.agree _).patch _ (Or.inl (by omega)))
    · rw [patch_other _ _ _ _ (by omega), push_last]
  | oneOrMore r ih =>
    intro o
    simp only [emit]
    obtain ⟨a2, f2⟩ := ih o
    generalize ho2 : emit r o = o2 at a2 f2 ⊢
    have a3 := Appends.push o2 (.split o.instrs.length (o2.instrs.length + 1))
    exact ⟨a2.trans a3, o2.instrs.length, f2.agree (a3.agree _), push_last _ _, push_length _ _⟩
  | repeatExactly n r ih => intro o; exact repeatN_spec ih n o
  | repeatAtLeast n r ih =>
    intro o
    simp only [emit]
    obtain ⟨a0, f0⟩ := repeatN_spec ih n o
    generalize ho0 : repeatN (emit r) n o = o0 at a0 f0 ⊢
    generalize ho1 : o0.push (.split (o0.instrs.length + 1) 0) = o1
    have a1 : Appends o0 o1 := by rw [← ho1]; exact .push _ _
    have l1 : o1.instrs.length = o0.instrs.length + 1 := by simp [← ho1]
    obtain ⟨a2, f2⟩ := ih o1
    generalize ho2 : emit r o1 = o2 at a2 f2 ⊢
    have hl2 := a2.len
    have a3 := Appends.push o2 (.jump o0.instrs.length)
    have a4 := ((a1.trans a2).trans a3).patch (Nat.le_refl _)
      (.split (o0.instrs.length + 1) (o2.push (.jump o0.instrs.length)).instrs.length)
    refine ⟨a0.trans a4, o0.instrs.length, o2.instrs.length, ?_, ?_, ?_, ?_, by simp⟩
    · exact FragN.agree (lo := o.instrs.length) (hi := o0.instrs.length) (fun _ _ => Frag.le)
        (fun x y hxy h1 h2 => hxy.agree ((a4.agree x).sub (Nat.le_refl _) h2)) f0 (Nat.le_refl _) (Nat.le_refl _)
    · simp only [patch_length]; rw [patch_at _ _ _ (by simp; omega)]
    · rw [l1] at f2
      exact f2.agree ((a3.agree _).patch _ (Or.inl (by omega)))
    · rw [patch_other _ _ _ _ (by omega), push_last]
  | repeatAtLeastAtMost n k r ih =>
    intro o
    simp only [emit]
    obtain ⟨a0, f0⟩ := repeatN_spec ih n o
    generalize ho0 : repeatN (emit r) n o = o0 at a0 f0 ⊢
    generalize ho1 : o0.push (.split (o0.instrs.length + 1) 0) = o1
    have a1 : Appends o0 o1 := by rw [← ho1]; exact .push _ _
    have l1 : o1.instrs.length = o0.instrs.length + 1 := by simp [← ho1]
    obtain ⟨a2, f2⟩ := repeatN_spec ih (k - n) o1
    generalize ho2 : repeatN (emit r) (k - n) o1 = o2 at a2 f2 ⊢
    have hl2 := a2.len
    have a3 := Appends.push o2 (.jump o0.instrs.length)
    have a4 := ((a1.trans a2).trans a3).patch (Nat.le_refl _)
      (.split (o0.instrs.length + 1) (o2.push (.jump o0.instrs.length)).instrs.length)
    refine ⟨a0.trans a4, o0.instrs.length, o2.instrs.length, ?_, ?_, ?_, ?_, by simp⟩
    · exact FragN.agree (lo := o.instrs.length) (hi := o0.instrs.length) (fun _ _ => Frag.le)
        (fun x y hxy h1 h2 => hxy.agree ((a4.agree x).sub (Nat.le_refl _) h2)) f0 (Nat.le_refl _) (Nat.le_refl _)
    · simp only [patch_length]; rw [patch_at _ _ _ (by simp; omega)]
    · rw [l1] at f2
      have := (a3.agree (o0.instrs.length + 1)).patch (p := o0.instrs.length)
        (.split (o0.instrs.length + 1) (o2.push (.jump o0.instrs.length)).instrs.length) (Or.inl (by omega))
      exact FragN.agree (lo := o0.instrs.length + 1) (hi := o2.instrs.length) (fun _ _ => Frag.le)
        (fun x y hxy h1 h2 => hxy.agree (this.sub h1 h2)) f2 (Nat.le_refl _) (Nat.le_refl _)
    · rw [patch_other _ _ _ _ (by omega), push_last]
  | capture r ih =>
    intro o
    simp only [emit]
    generalize ho1 : o.push .captureStart = o1
    have a1 : Appends o o1 := by rw [← ho1]; exact .push _ _
    have l1 : o1.instrs.length = o.instrs.length + 1 := by simp [← ho1]
    obtain ⟨a2, f2⟩ := ih o1
    generalize ho2 : emit r o1 = o2 at a2 f2 ⊢
    have hl2 := a2.len
    have a3 := Appends.push o2 .captureEnd
    refine ⟨(a1.trans a2).trans a3, o2.instrs.length, ?_, ?_, push_last _ _, push_length _ _⟩
    · rw [a3.instrs _ (by omega), a2.instrs _ (by omega), ← ho1, push_last]
    · rw [l1] at f2
      exact f2.agree (a3.agree _)

end Louis.Regexp
