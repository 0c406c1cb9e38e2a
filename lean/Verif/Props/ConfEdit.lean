/-
C72: edits of configuration files.
-/
import Verif.Proof.ConfBuild

namespace Verif.Props

open Verif Verif.Model Verif.Model.Tree Verif.Model.ConfEdit Verif.Spec Verif.Spec.Conf Verif.Proof.ConfTree
open Verif.Spec.Trees (Forest)

/-- Every list of commands has a meaning. -/
theorem C72_meaning (trim : Bytes → Bytes) (k : Commands) : ∃ es, k.Mean trim es := mean_exists trim k

/-- **C72.** The editor is given a parsed file without repeated sections and entries. Either some command meets a document that breaks the
program, all edits before it are performed and the program panics; or all edits are performed one after another and the saved text is the
text of the new document. Then every entry has the value given by the edits, all other entries keep their values, and if the file is not
saved then nothing is changed. New documents have no repetitions as well.

What is missing: that the saved text means the same when it is parsed again, see `C72_lines_are_joined`. -/
theorem C72_conf_edit_partial {trim : Bytes → Bytes} (ht : Trims trim) {m : Mem} {F : Forest} {root : Nat} (p : Parsed m F root) {d : Doc}
    (hd : docAt (labels m.heap) F root = d) (hg : d.Good) (hdist : d.Distinct) (hsep : d.Separate) {k : Commands} {es : List Edit} (hk : k.Mean trim es) :
    (∃ es₁ x es₂ d₁, es = es₁ ++ x :: es₂ ∧ Edits trim d es₁ d₁ ∧ x.Breaks d₁ ∧
      ∃ N, ∀ fuel ≥ N, savedText trim fuel m root k.removeSections k.addSections k.removeValues k.setValues = .panic) ∨
    ∃ c d', (∃ N, ∀ fuel ≥ N, savedText trim fuel m root k.removeSections k.addSections k.removeValues k.setValues = .done (c, d'.text)) ∧
      Edits trim d es d' ∧ (∀ s e, d'.lookup trim s e = es.foldl (fun f x => x.apply trim f) (d.lookup trim) s e) ∧ (¬ c.Updated → d' = d) ∧
      d'.Good ∧ d'.Distinct ∧ d'.Separate := by
  subst hd
  obtain ⟨c, ⟨N0, h0⟩, i, rfl, -⟩ := load_spec (trim := trim) p hg hdist hsep
  rcases commands_spec ht hk i with ⟨es₁, x, es₂, d₁, rfl, hE, hB, N, hN⟩ | ⟨m', c', F', ⟨N, hN⟩, i', hr, hm, hE, hget⟩
  · refine .inl ⟨es₁, x, es₂, d₁, rfl, hE, hB, N0 + N, fun fuel hf => ?_⟩
    have e0 := h0 fuel (by omega)
    have e1 := hN fuel (by omega)
    dsimp only at e0
    simp only [savedText, runCommands, e0, bindRun] at e1 ⊢
    rw [e1]
  · obtain ⟨N2, hN2⟩ := serialize_spec i'.ok.rep i'.flat
    rw [hr] at hN2
    refine .inr ⟨c', docAt (labels m'.heap) F' c.root, ⟨N0 + N + N2, fun fuel hf => ?_⟩, hE, fun s e => ?_, fun hu => ?_, ?_, ?_, ?_⟩
    · have e0 := h0 fuel (by omega)
      have e1 := hN fuel (by omega)
      have e2 := hN2 fuel (by omega)
      dsimp only at e0
      simp only [savedText, runCommands, e0, bindRun] at e1 ⊢
      rw [e1]
      simp only [hr, e2]
    · have h1 := i'.lookup ht s e
      rw [hr] at h1
      rw [h1, hget]
      have h2 : (docAt (labels m.heap) F c.root).lookup trim = Conf.get trim c := by
        funext s e
        exact i.lookup ht s e
      rw [h2]
    · rcases hm.2 with h | rfl
      · exact absurd h hu
      · rw [rep_unique i.ok.rep i'.ok.rep]
    · have := i'.good
      rwa [hr] at this
    · have := i'.distinct
      rwa [hr] at this
    · have := i'.separate
      rwa [hr] at this

/-! Examples -/

/-- Text of a string. -/
def confBytes (s : String) : Bytes := s.toList.map Char.toNat

/-- White space of ASCII. -/
def isBlank (b : Nat) : Bool := b = 32 ∨ 9 ≤ b ∧ b ≤ 13

/-- `strings.TrimSpace` for ASCII. -/
def trimBlank (l : Bytes) : Bytes := ((l.dropWhile isBlank).reverse.dropWhile isBlank).reverse

theorem dropWhile_head {p : Nat → Bool} : ∀ {l : Bytes}, (∀ x, l.head? = some x → p x = false) → l.dropWhile p = l
  | [], _ => rfl
  | x :: l, h => by simp [List.dropWhile_cons, h x rfl]

theorem head_dropWhile (p : Nat → Bool) : ∀ (l : Bytes) x, (l.dropWhile p).head? = some x → p x = false
  | [], x, h => by simp at h
  | y :: l, x, h => by
    cases hy : p y with
    | true => rw [List.dropWhile_cons_of_pos hy] at h; exact head_dropWhile p l x h
    | false => simp [List.dropWhile_cons, hy] at h; exact h ▸ hy

theorem trimBlank_trims : Trims trimBlank := by
  refine ⟨rfl, fun l => ?_⟩
  have h1 : ∀ l : Bytes, ((l.dropWhile isBlank).dropWhile isBlank) = l.dropWhile isBlank := fun l => dropWhile_head (head_dropWhile _ l)
  -- the first byte stays
  have h2 : ∀ (l : Bytes), (∀ x, l.head? = some x → isBlank x = false) →
      ∀ x, ((l.reverse.dropWhile isBlank).reverse).head? = some x → isBlank x = false := by
    intro l hl x hx
    have hp : (l.reverse.dropWhile isBlank).reverse <+: l := by
      have := (List.dropWhile_suffix isBlank (l := l.reverse))
      have := List.reverse_prefix.2 this
      simpa using this
    obtain ⟨t, ht⟩ := hp
    refine hl x ?_
    rw [← ht]
    cases hr : (l.reverse.dropWhile isBlank).reverse with
    | nil => simp [hr] at hx
    | cons y r => rw [hr] at hx; simpa using hx
  have h3 : ∀ l : Bytes, (∀ x, l.head? = some x → isBlank x = false) → ((l.reverse.dropWhile isBlank).reverse).dropWhile isBlank = (l.reverse.dropWhile isBlank).reverse :=
    fun l hl => dropWhile_head (h2 l hl)
  simp only [trimBlank]
  rw [h3 _ (head_dropWhile _ l), List.reverse_reverse, h1]

/-- The saved text for a document and commands. -/
def edited (d : Doc) (rs as cs ss : List String) : Run Bytes :=
  bindRun (savedText trimBlank 60 (Mem.build d) 0 (rs.map confBytes) (as.map confBytes) (cs.map confBytes) (ss.map confBytes)) fun r => .done r.2

/-- An entry on its line. -/
def lineOf (k v : String) : Part := entryPart (confBytes k) (confBytes v)

/-- There is a tree for every document. -/
example (d : Doc) : ∃ F, Parsed (Mem.build d) F 0 ∧ docAt (labels (Mem.build d).heap) F 0 = d := build_parsed d

/-- A sample of `lib_test.go`, line 83. -/
example : edited [] [] [] [] ["a.b=c", "name=value", "foo.bar=baz", "a.b=d", "foo.bar=qux"] =
    .done (confBytes "name=value\n\n[a]\nb=d\n\n[foo]\nbar=qux\n") := by decide +kernel

/-- Other samples of `lib_test.go`, lines 102, 113, 119. -/
example : edited [.node "def-section" [sepPart], .token ⟨"comment", confBytes "#comment\n"⟩] [] [] [] ["foo=bar", "user.name=root"] =
    .done (confBytes "foo=bar\n\n#comment\n[user]\nname=root\n") := by decide +kernel
example : edited [.node "section" [headerPart (confBytes "user"), lineOf "name" "admin"],
      .node "section" [headerPart (confBytes "user.contact"), .token ⟨"comment", confBytes "#net\n"⟩, lineOf "addr" "localhost"],
      .node "section" [headerPart (confBytes "user.contact.phone"), lineOf "work" "911"]] ["user.contact"] [] [] [] =
    .done (confBytes "[user]\nname=admin\n[user.contact.phone]\nwork=911\n") := by decide +kernel
example : edited [.node "def-section" [lineOf "foobar" "3", lineOf "foo" "1", lineOf "bar" "2"]] [] [] ["foo"] ["qux=4"] =
    .done (confBytes "foobar=3\nbar=2\nqux=4\n") := by decide +kernel

/-- A document: a comment, two entries, a section with an entry. -/
def sampleConf : Doc := [.token ⟨"comment", confBytes "#c\n"⟩, .node "def-section" [lineOf "a" "1", lineOf "b" "", sepPart],
  .node "section" [headerPart (confBytes "s"), lineOf "a" "2"]]

/-- Hypotheses of `C72_conf_edit_partial` hold for `sampleConf` and commands `-c b -s t.x=3`. -/
example : Trims trimBlank ∧ (∃ F, Parsed (Mem.build sampleConf) F 0 ∧ docAt (labels (Mem.build sampleConf).heap) F 0 = sampleConf) ∧
    sampleConf.Good ∧ sampleConf.Distinct ∧ sampleConf.Separate ∧
    Commands.Mean trimBlank ⟨[], [], [confBytes "b"], [confBytes "t.x=3"]⟩ [.remove [] (confBytes "b"), .set (confBytes "t") (confBytes "x") (confBytes "3")] ∧
    edited sampleConf [] [] ["b"] ["t.x=3"] = .done (confBytes "#c\na=1\n\n[s]\na=2\n\n[t]\nx=3\n") := by
  refine ⟨trimBlank_trims, build_parsed _, ?_, by unfold Doc.Distinct; decide, by unfold Doc.Separate; decide, ?_, by decide +kernel⟩
  · have line : ∀ k v, (lineOf k v).Good := fun k v =>
      .inr ⟨.inr ⟨rfl, (newToks_good (confBytes k) (confBytes v)).1⟩, (newToks_good (confBytes k) (confBytes v)).2.1⟩
    intro it hit
    simp only [sampleConf, List.mem_cons, List.not_mem_nil, or_false] at hit
    rcases hit with rfl | rfl | rfl
    · simp [Item.Good]
    · refine ⟨.inl rfl, fun q hq => ?_⟩
      simp only [List.mem_cons, List.not_mem_nil, or_false] at hq
      rcases hq with rfl | rfl | rfl
      · exact line ..
      · exact line ..
      · exact .inr ⟨.inl rfl, by simp⟩
    · refine ⟨.inr ⟨rfl, ⟨"sec-name", confBytes "s"⟩, by simp [headerPart, Part.toks], rfl⟩, fun q hq => ?_⟩
      simp only [List.mem_cons, List.not_mem_nil, or_false] at hq
      rcases hq with rfl | rfl
      · exact .inl rfl
      · exact line ..
  · refine ⟨_, _, .cons ⟨_, _, .plain _ (by decide), rfl⟩ .nil, .cons ⟨confBytes "t.x", confBytes "3", _, _, .full (confBytes "t.x") (confBytes "3") (by decide), .full (confBytes "t") (confBytes "x") (by decide), rfl⟩ .nil, rfl⟩

/-! What the editor must not do -/

/-- The program panics after a permitted command: the only entry of the file `a=1` is removed and an entry of a section is set, `-c a -s foo.b=1`. -/
theorem C72_panic_after_removal : edited [.node "def-section" [lineOf "a" "1"]] [] [] ["a"] ["foo.b=1"] = .panic := by decide +kernel

/-- The program panics when a section after a comment is removed, `-r a`. -/
theorem C72_panic_after_comment :
    edited [.token ⟨"comment", confBytes "#c\n"⟩, .node "section" [headerPart (confBytes "a"), lineOf "x" "1"]] ["a"] [] [] [] = .panic := by decide +kernel

/-- A section is removed, but it is still there: it is in the file twice, `-r a`. -/
theorem C72_section_stays : edited [.node "section" [headerPart (confBytes "a"), lineOf "x" "1"], .node "section" [headerPart (confBytes "a"), lineOf "y" "2"]]
    ["a"] [] [] [] = .done (confBytes "[a]\ny=2\n") := by decide +kernel

/-- A new value is lost: the entry is in the file twice and the second one is empty, `-s a=2`. The saved file has an empty value. -/
theorem C72_value_is_lost : edited [.node "def-section" [lineOf "a" "1", lineOf "a" ""]] [] [] [] ["a=2"] = .done (confBytes "a=\n") := by decide +kernel

/-- A new value becomes a part of another one: the last entry has no line feed, `-s qux=1`; the value of `foo` was `bar`, in the
saved file it is `barqux=1`, and there is no `qux`. (A file always ends with a line feed when it is parsed, so the line feed is taken by
a comment, as in the next theorem; see also `C78_lines_are_joined`.) -/
theorem C72_lines_are_joined : edited [.node "def-section" [.node "entry" [⟨"name", confBytes "foo"⟩, ⟨"op", [61]⟩, ⟨"value", confBytes "bar"⟩]]] [] [] [] ["qux=1"] =
    .done (confBytes "foo=barqux=1\n") := by decide +kernel

/-- The same happens before a comment at the end of a line: the comment belongs to the file, not to the entry, and takes the line feed. -/
theorem C72_comment_is_moved : edited [.node "def-section" [.node "entry" [⟨"name", confBytes "foo"⟩, ⟨"op", [61]⟩, ⟨"value", confBytes "bar "⟩]],
    .token ⟨"comment", confBytes "#c\n"⟩] [] [] [] ["qux=1"] = .done (confBytes "foo=bar qux=1\n#c\n") := by decide +kernel

end Verif.Props
