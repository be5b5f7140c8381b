import Verif.Model.Search
import Verif.Props.CheckRun

/-!
# C67: `louis query` over the directories of the search path
-/

namespace Louis

open Regexp (Fault)

/-! ## Specification -/

/-- The file is listed in a directory of the search path. -/
def Folders.Lists (fs : Folders) (dirs : List Text) (path : Text) : Prop :=
  ∃ dir ∈ dirs, ∃ es, fs.entries dir = some es ∧ some path ∈ es

/-- Every directory of the search path, and every entry of it, can be read. -/
def Folders.Readable (fs : Folders) (dirs : List Text) : Prop :=
  ∀ dir ∈ dirs, ∃ es, fs.entries dir = some es ∧ none ∉ es

/-- The file is a readable text, a line of which declares the pair. -/
def Folders.Declares (ws : Char → Bool) (fs : Folders) (path : Text) (kv : Text × Text) : Prop :=
  ∃ content, fs.read path = some content ∧ ∃ line ∈ lines content, Louis.Declares ws line kv.1 kv.2

/-! ## Proofs -/

theorem allSome_id {α : Type} : ∀ (l : List (Option α)), match allSome id l with
    | none => none ∈ l
    | some as => l = as.map some
  | [] => rfl
  | none :: l => by simp [allSome]
  | some a :: l => by
    have := allSome_id l
    simp only [allSome, id]
    cases h : allSome id l with
    | none => rw [h] at this; simp only [Option.map_none]; exact List.mem_cons_of_mem _ this
    | some as => rw [h] at this; simp only [Option.map_some]; rw [this]; rfl

theorem paths_spec (fs : Folders) : ∀ (dirs : List Text), match fs.paths dirs with
    | none => ¬ fs.Readable dirs
    | some ps => fs.Readable dirs ∧ ∀ p, p ∈ ps ↔ fs.Lists dirs p
  | [] => ⟨fun _ h => (by cases h), fun p => ⟨fun h => (by cases h), fun ⟨_, h, _⟩ => (by cases h)⟩⟩
  | dir :: dirs => by
    have ih := paths_spec fs dirs
    unfold Folders.paths
    cases he : fs.entries dir with
    | none =>
      intro h
      obtain ⟨es, h, -⟩ := h dir (by simp)
      rw [he] at h; cases h
    | some es =>
      have ha := allSome_id es
      simp only
      cases h : allSome id es with
      | none =>
        rw [h] at ha
        intro hr
        obtain ⟨es', h', hn⟩ := hr dir (by simp)
        rw [he] at h'; injection h' with h'; subst h'
        exact hn ha
      | some ps =>
        rw [h] at ha
        simp only at ha
        cases hp : fs.paths dirs with
        | none =>
          rw [hp] at ih
          exact fun hr => ih fun d hd => hr d (List.mem_cons_of_mem _ hd)
        | some rest =>
          rw [hp] at ih
          refine ⟨fun d hd => ?_, fun p => ?_⟩
          · rcases List.mem_cons.1 hd with rfl | hd
            · exact ⟨es, he, by rw [ha]; simp⟩
            · exact ih.1 d hd
          · rw [List.mem_append, ih.2 p]
            constructor
            · rintro (hm | ⟨d, hd, x⟩)
              · exact ⟨dir, by simp, es, he, by rw [ha]; exact List.mem_map.2 ⟨p, hm, rfl⟩⟩
              · exact ⟨d, List.mem_cons_of_mem _ hd, x⟩
            · rintro ⟨d, hd, es', he', hm⟩
              rcases List.mem_cons.1 hd with rfl | hd
              · rw [he] at he'; injection he' with he'; subst he'
                rw [ha] at hm
                obtain ⟨q, hq, e⟩ := List.mem_map.1 hm
                injection e with e; subst e
                exact .inl hq
              · exact .inr ⟨d, hd, es', he', hm⟩

/-- **C67, the whole command.** If every directory of the search path can be read, a query of pairs is answered with exactly the
files of these directories that are readable texts and declare every pair. -/
theorem C67_query_command (ws : Char → Bool) (fs : Folders) (dirs : List Text) (hr : fs.Readable dirs) (arg : Text)
    (q : List (Text × Text)) (h : QuerySrc arg q) : ∃ result, queryReply ws fs dirs arg = .found result ∧
      ∀ p, p ∈ result ↔ fs.Lists dirs p ∧ ∀ kv ∈ q, fs.Declares ws p kv := by
  have hp := paths_spec fs dirs
  unfold queryReply Folders.index
  cases hps : fs.paths dirs with
  | none => rw [hps] at hp; exact absurd hr hp
  | some ps =>
    rw [hps] at hp
    simp only [Option.map_some]
    obtain ⟨result, e, hres⟩ := C67_query_answer ws (ps.filterMap fun p => (fs.read p).map fun content => (p, lines content)) arg q h
    rw [e]
    refine ⟨result, rfl, fun p => (hres p).trans ?_⟩
    have key : ∀ ls, (p, ls) ∈ (ps.filterMap fun p => (fs.read p).map fun content => (p, lines content)) ↔
        fs.Lists dirs p ∧ ∃ content, fs.read p = some content ∧ ls = lines content := by
      intro ls
      rw [List.mem_filterMap, ← hp.2 p]
      constructor
      · rintro ⟨a, ha, e⟩
        cases hc : fs.read a with
        | none => rw [hc] at e; cases e
        | some content =>
          rw [hc] at e
          simp only [Option.map_some, Option.some.injEq, Prod.mk.injEq] at e
          obtain ⟨rfl, rfl⟩ := e
          exact ⟨ha, content, hc, rfl⟩
      · rintro ⟨ha, content, hc, rfl⟩
        exact ⟨p, ha, by rw [hc]; rfl⟩
    have hq : q ≠ [] := by
      rintro rfl
      obtain ⟨hc, he⟩ := h
      cases he
      cases hc
    constructor
    · intro hk
      refine ⟨?_, fun kv hkv => ?_⟩
      · obtain ⟨kv, hkv⟩ := List.exists_mem_of_ne_nil q hq
        obtain ⟨ls, hm, -⟩ := hk kv hkv
        exact ((key ls).1 hm).1
      · obtain ⟨ls, hm, line, hl, hd⟩ := hk kv hkv
        obtain ⟨-, content, hc, rfl⟩ := (key ls).1 hm
        exact ⟨content, hc, line, hl, hd⟩
    · rintro ⟨hl, hk⟩ kv hkv
      obtain ⟨content, hc, line, hm, hd⟩ := hk kv hkv
      exact ⟨lines content, (key _).2 ⟨hl, content, hc, rfl⟩, line, hm, hd⟩

/-- **C67.** One directory (or entry) of the search path that cannot be read makes every query fail, whatever the others hold. -/
theorem C67_unreadable_directory (ws : Char → Bool) (fs : Folders) (dirs : List Text) (arg : Text) :
    queryReply ws fs dirs arg = .notIndexed ↔ ¬ fs.Readable dirs := by
  have hp := paths_spec fs dirs
  unfold queryReply Folders.index
  cases hps : fs.paths dirs with
  | none => rw [hps] at hp; exact ⟨fun _ => hp, fun _ => rfl⟩
  | some ps =>
    rw [hps] at hp
    simp only [Option.map_some]
    refine ⟨fun h => ?_, fun h => absurd hp.1 h⟩
    split at h <;> cases h

/-- A directory with two tables, a file that is no text, and a directory that lists one of them again. -/
def demoFolders : Folders where
  entries dir := if dir = "t".toList then some [some "t/a".toList, some "t/b".toList, some "t/pic".toList]
    else if dir = "u".toList then some [some "u/c".toList] else if dir = "x".toList then none else some []
  read p := if p = "t/a".toList then some "# a table\n#+language: de\n#+grade:2\nspace \\s 0\n".toList
    else if p = "t/b".toList then some "#+language:de\n".toList
    else if p = "u/c".toList then some "#+grade:2\n#+language:de".toList else none

/-- The hypotheses of `C67_query_command` are met, and the answer is what it says. -/
example : queryReply isWs demoFolders ["t".toList, "u".toList] "language=de,grade=2".toList =
    .found ["t/a".toList, "u/c".toList] ∧ queryReply isWs demoFolders ["t".toList, "x".toList] "language=de".toList = .notIndexed := by
  decide +kernel

example : demoFolders.Readable ["t".toList, "u".toList] := by
  intro dir hd
  simp only [List.mem_cons, List.not_mem_nil, or_false] at hd
  rcases hd with rfl | rfl
  · exact ⟨_, rfl, by decide +kernel⟩
  · exact ⟨_, rfl, by decide +kernel⟩

end Louis
