import Verif.Model.Source

/-!
# Decidable equality of the syntax trees, for the concrete cases
-/

namespace Louis

mutual
/-- Equality of patterns, as a computable function (no code of the library is modelled by it). -/
def Pattern.same : Pattern → Pattern → Bool
  | .empty, .empty => true
  | .characters a, .characters b => a == b
  | .boundary a, .boundary b => a == b
  | .any, .any => true
  | .set a, .set b => a == b
  | .attributes a, .attributes b => a == b
  | .attributesOrBoundary a s, .attributesOrBoundary b t => a == b && s == t
  | .group a, .group b => Pattern.sameList a b
  | .negate a, .negate b => Pattern.same a b
  | .optional a, .optional b => Pattern.same a b
  | .zeroOrMore a, .zeroOrMore b => Pattern.same a b
  | .oneOrMore a, .oneOrMore b => Pattern.same a b
  | .either a b, .either c d => Pattern.sameList a c && Pattern.sameList b d
  | _, _ => false
def Pattern.sameList : List Pattern → List Pattern → Bool
  | [], [] => true
  | a :: as, b :: bs => Pattern.same a b && Pattern.sameList as bs
  | _, _ => false
end

mutual
theorem Pattern.same_sound (p q : Pattern) (h : p.same q = true) : p = q := by
  cases p <;> cases q <;> simp only [Pattern.same, Bool.and_eq_true, beq_iff_eq, reduceCtorEq, Bool.false_eq_true] at h <;>
    simp only [h, Pattern.group.injEq, Pattern.negate.injEq, Pattern.optional.injEq, Pattern.zeroOrMore.injEq,
      Pattern.oneOrMore.injEq, Pattern.either.injEq]
  · exact Pattern.sameList_sound _ _ h
  · exact Pattern.same_sound _ _ h
  · exact Pattern.same_sound _ _ h
  · exact Pattern.same_sound _ _ h
  · exact Pattern.same_sound _ _ h
  · exact ⟨Pattern.sameList_sound _ _ h.1, Pattern.sameList_sound _ _ h.2⟩
theorem Pattern.sameList_sound (p q : List Pattern) (h : Pattern.sameList p q = true) : p = q := by
  cases p <;> cases q <;> simp only [Pattern.sameList, Bool.and_eq_true, Bool.false_eq_true] at h ⊢
  simp only [List.cons.injEq]
  exact ⟨Pattern.same_sound _ _ h.1, Pattern.sameList_sound _ _ h.2⟩
end

mutual
theorem Pattern.same_refl (p : Pattern) : p.same p = true := by
  cases p <;> simp only [Pattern.same, Bool.and_eq_true, beq_self_eq_true, and_self]
  · exact Pattern.sameList_refl _
  · exact Pattern.same_refl _
  · exact Pattern.same_refl _
  · exact Pattern.same_refl _
  · exact Pattern.same_refl _
  · exact ⟨Pattern.sameList_refl _, Pattern.sameList_refl _⟩
theorem Pattern.sameList_refl (p : List Pattern) : Pattern.sameList p p = true := by
  cases p <;> simp only [Pattern.sameList, Bool.and_eq_true]
  exact ⟨Pattern.same_refl _, Pattern.sameList_refl _⟩
end

instance : DecidableEq Pattern := fun p q =>
  if h : p.same q = true then isTrue (Pattern.same_sound p q h) else isFalse fun e => h (e ▸ Pattern.same_refl p)

mutual
/-- Equality of tests, as a computable function (no code of the library is modelled by it). -/
def TestInstr.same : TestInstr → TestInstr → Bool
  | .lookback a, .lookback b => a == b
  | .varTest a b c, .varTest x y z => a == x && b == y && c == z
  | .string a, .string b => a == b
  | .dots a, .dots b => a == b
  | .attributes a p, .attributes b q => a == b && p == q
  | .cls a p, .cls b q => a == b && p == q
  | .negate a, .negate b => TestInstr.same a b
  | .replace a, .replace b => TestInstr.sameList a b
  | .atBeginning, .atBeginning => true
  | .atEnd, .atEnd => true
  | _, _ => false
def TestInstr.sameList : List TestInstr → List TestInstr → Bool
  | [], [] => true
  | a :: as, b :: bs => TestInstr.same a b && TestInstr.sameList as bs
  | _, _ => false
end

mutual
theorem TestInstr.same_sound (p q : TestInstr) (h : p.same q = true) : p = q := by
  cases p <;> cases q <;> simp only [TestInstr.same, Bool.and_eq_true, beq_iff_eq, reduceCtorEq, Bool.false_eq_true] at h <;>
    simp only [h, TestInstr.negate.injEq, TestInstr.replace.injEq]
  · exact TestInstr.same_sound _ _ h
  · exact TestInstr.sameList_sound _ _ h
theorem TestInstr.sameList_sound (p q : List TestInstr) (h : TestInstr.sameList p q = true) : p = q := by
  cases p <;> cases q <;> simp only [TestInstr.sameList, Bool.and_eq_true, Bool.false_eq_true] at h ⊢
  simp only [List.cons.injEq]
  exact ⟨TestInstr.same_sound _ _ h.1, TestInstr.sameList_sound _ _ h.2⟩
end

mutual
theorem TestInstr.same_refl (p : TestInstr) : p.same p = true := by
  cases p <;> simp only [TestInstr.same, Bool.and_eq_true, beq_self_eq_true, and_self]
  · exact TestInstr.same_refl _
  · exact TestInstr.sameList_refl _
theorem TestInstr.sameList_refl (p : List TestInstr) : TestInstr.sameList p p = true := by
  cases p <;> simp only [TestInstr.sameList, Bool.and_eq_true]
  exact ⟨TestInstr.same_refl _, TestInstr.sameList_refl _⟩
end

instance : DecidableEq TestInstr := fun p q =>
  if h : p.same q = true then isTrue (TestInstr.same_sound p q h) else isFalse fun e => h (e ▸ TestInstr.same_refl p)

deriving instance DecidableEq for Except
deriving instance DecidableEq for Rule

end Louis
