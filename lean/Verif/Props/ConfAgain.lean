/-
C80: what the configuration editor saves is read back as it was meant.
-/
import Verif.Props.ConfLines

namespace Verif.Props.Conf

open Verif Verif.Model Verif.Model.ConfEdit Verif.Spec Verif.Spec.Ebnf Verif.Spec.Conf Verif.Proof Verif.Proof.Conf Verif.Props
open Verif.Model.Tree (bindRun Heap treeHeap)
open Verif.Proof.ConfTree (Parsed labels)
open Verif.Spec.Trees (Forest)
open Verif.Props.Style (isLetter isDigit)

/-! Names -/

/-- The last word of a name: there are no signs in it, all that is before it is a name, too. -/
theorem word_noDot {w : Bytes} (h : Word w) : 46 ∉ w ∧ 45 ∉ w := by
  obtain ⟨c, s, rfl, h1, h2⟩ := h
  refine ⟨fun hm => ?_, fun hm => ?_⟩
  · rcases List.mem_cons.mp hm with e | hm
    · unfold Letter at h1; omega
    · have := h2 _ hm; unfold Letter Digit at this; omega
  · rcases List.mem_cons.mp hm with e | hm
    · unfold Letter at h1; omega
    · have := h2 _ hm; unfold Letter Digit at this; omega

/-- A name without dots. -/
theorem name_undotted {n : Bytes} (h : Name [46, 45] n) (hd : 46 ∉ n) : Name [45] n := by
  induction h with
  | word h => exact .word h
  | join h1 h2 _ ih =>
    simp only [List.mem_append, List.mem_cons, not_or] at hd
    refine .join h1 ?_ (ih hd.2.2)
    rcases List.mem_cons.mp h2 with rfl | h2
    · exact absurd rfl hd.2.1
    · exact h2

/-- A name is divided by a dot into names. -/
theorem name_divided {n : Bytes} (h : Name [46, 45] n) : ∀ {s e : Bytes}, n = s ++ 46 :: e → Name [46, 45] s ∧ Name [46, 45] e := by
  induction h with
  | word h =>
    rintro s e rfl
    exact absurd (by simp) (word_noDot h).1
  | @join w n c h1 h2 h3 ih =>
    intro s e he
    rcases List.append_eq_append_iff.mp he with ⟨a, rfl, h⟩ | ⟨a, rfl, h⟩
    · cases a with
      | nil =>
        simp only [List.nil_append, List.cons.injEq] at h
        obtain ⟨rfl, rfl⟩ := h
        simp only [List.append_nil]
        exact ⟨.word h1, h3⟩
      | cons x a =>
        simp only [List.cons_append, List.cons.injEq] at h
        obtain ⟨rfl, rfl⟩ := h
        obtain ⟨g1, g2⟩ := ih rfl
        exact ⟨.join h1 h2 g1, g2⟩
    · cases a with
      | nil =>
        simp only [List.nil_append, List.cons.injEq, List.append_nil] at h h1
        obtain ⟨rfl, rfl⟩ := h
        exact ⟨.word h1, h3⟩
      | cons x a =>
        simp only [List.cons_append, List.cons.injEq] at h
        obtain ⟨rfl, -⟩ := h
        exact absurd (by simp) (word_noDot h1).1

/-- Parts of the name of an entry. -/
theorem names_parts {n s e : Bytes} (h : Names n s e) (hn : Name [46, 45] n) : (s = [] ∨ Name [46, 45] s) ∧ Name [45] e := by
  cases h with
  | plain _ h => exact ⟨.inl rfl, name_undotted hn h⟩
  | full _ _ h =>
    obtain ⟨h1, h2⟩ := name_divided hn rfl
    exact ⟨.inr h1, name_undotted h2 h⟩

/-! Commands -/

theorem mem_ofKind {k : Kind} {l : List (Kind × Bytes)} {c : Bytes} (h : c ∈ ofKind k l) : (k, c) ∈ l := by
  simp only [ofKind, List.mem_map, List.mem_filter, decide_eq_true_eq] at h
  obtain ⟨⟨k', c'⟩, ⟨h1, rfl⟩, rfl⟩ := h
  exact h1

theorem assignment_same {c n v n' v' : Bytes} (h : Assignment c n v) (h' : Assignment c n' v') : n = n' ∧ v = v' := by
  have key : ∀ {a b a' b' : Bytes}, 61 ∉ a → 61 ∉ a' → a ++ 61 :: b = a' ++ 61 :: b' → a = a' ∧ b = b' := by
    intro a
    induction a with
    | nil =>
      intro b a' b' _ h' e
      cases a' with
      | nil => simpa using e
      | cons x a' => simp only [List.nil_append, List.cons_append, List.cons.injEq] at e; exact absurd (by simp [e.1]) h'
    | cons y a ih =>
      intro b a' b' h h' e
      cases a' with
      | nil => simp only [List.nil_append, List.cons_append, List.cons.injEq] at e; exact absurd (by simp [e.1]) h
      | cons x a' =>
        simp only [List.cons_append, List.cons.injEq] at e
        obtain ⟨rfl, g2⟩ := ih (fun hm => h (by simp [hm])) (fun hm => h' (by simp [hm])) e.2
        exact ⟨by rw [e.1], g2⟩
  cases h with
  | empty _ h =>
    generalize hc : c = c' at h'
    cases h' with
    | empty => exact ⟨rfl, rfl⟩
    | full => exact absurd (by rw [hc]; simp) h
  | full n v h =>
    generalize hc : n ++ 61 :: v = c' at h'
    cases h' with
    | empty _ h' => exact absurd (by rw [← hc]; simp) h'
    | full _ _ h' => exact key h h' hc

/-- All edits can be written as lines. -/
theorem edits_ok {trim : Bytes → Bytes} {valid : Bytes → Bool} (hvalid : ∀ n, valid n = true → Name [46, 45] n) {l : List (Kind × Bytes)}
    (hacc : ∀ c ∈ l, Accepted valid c) (hval : ∀ c ∈ ofKind .setValue l, ∀ n v, Assignment c n v → trim v = [] ∨ GoodValue (trim v)) {es : List Edit}
    (hes : (Commands.of l).Mean trim es) : ∀ x ∈ es, EditOk x := by
  obtain ⟨rs, ss, h1, h2, rfl⟩ := hes
  intro x hx
  simp only [List.mem_append, List.mem_map] at hx
  rcases hx with ((⟨c, -, rfl⟩ | ⟨c, hc, rfl⟩) | hx) | hx
  · trivial
  · have := hacc _ (mem_ofKind hc)
    exact .inr (hvalid c (by simpa [Accepted] using this))
  · obtain ⟨i, hi, rfl⟩ := List.getElem_of_mem hx
    obtain ⟨s, e, -, h⟩ := (List.forall₂_iff_get.mp h1).2 i (by have := h1.length_eq; omega) hi
    simp only [List.get_eq_getElem] at h
    rw [h]; trivial
  · obtain ⟨i, hi, rfl⟩ := List.getElem_of_mem hx
    obtain ⟨n, v, s, e, g1, g2, h⟩ := (List.forall₂_iff_get.mp h2).2 i (by have := h2.length_eq; omega) hi
    simp only [List.get_eq_getElem] at h g1
    rw [h]
    have hm : (ofKind .setValue l)[i]'(by have := h2.length_eq; simp only [Commands.of] at this; omega) ∈ ofKind .setValue l := List.getElem_mem _
    have ha := hacc _ (mem_ofKind hm)
    simp only [Accepted, if_pos] at ha
    obtain ⟨n', v', g3, g4⟩ := ha
    obtain ⟨rfl, rfl⟩ := assignment_same g1 g3
    obtain ⟨g5, g6⟩ := names_parts g2 (hvalid _ g4)
    exact ⟨g5, g6, hval _ hm _ _ g1⟩

/-! Texts -/

theorem plain_file {lines : List Line} {t : Bytes} (h : PlainText lines t) : FileText lines t := by
  induction h with
  | nil => exact .nil
  | cons h _ _ ih => exact .cons h ih

theorem plain_last {lines : List Line} {t : Bytes} (h : PlainText lines t) : t = [] ∨ t.getLast? = some 10 := by
  induction h with
  | nil => exact .inl rfl
  | @cons x l s t h _ _ ih =>
    right
    have hs : s.getLast? = some 10 := by
      cases h with
      | blank => simp
      | comment _ h => obtain ⟨c, -, rfl⟩ := h; simp [List.getLast?_append, List.getLast?_cons]
      | entry _ _ _ _ _ h =>
        rcases h with rfl | ⟨c, -, rfl⟩ <;> simp [List.getLast?_append, List.getLast?_cons]
      | unset => simp [List.getLast?_append, List.getLast?_cons]
      | header => simp [List.getLast?_append, List.getLast?_cons]
    rcases ih with rfl | ih
    · simpa using hs
    · simp [List.getLast?_append, ih]

theorem plain_append {l l' : List Line} {t t' : Bytes} (h : PlainText l t) (h' : PlainText l' t') : PlainText (l ++ l') (t ++ t') := by
  induction h with
  | nil => exact h'
  | cons h1 h2 _ ih => rw [List.append_assoc]; exact .cons h1 h2 ih

/-- Spaces at the end become a blank line. -/
theorem tail_readable {lines : List Line} {t : Bytes} (h : Tail lines t) :
    PlainText lines (readable t) ∨ PlainText (lines ++ [.blank]) (readable t) := by
  obtain ⟨t0, b, rfl, h1, h2, h3⟩ := h
  have hn : Spec.Text.normalize (t0 ++ b) = t0 ++ b := Model.normalize_id h3
  rw [readable, hn]
  by_cases hb : b = []
  · subst hb
    rw [List.append_nil, if_pos (plain_last h1)]
    exact .inl h1
  · right
    have hl : (t0 ++ b).getLast? ≠ some 10 := by
      rw [List.getLast?_append]
      intro h
      obtain ⟨c, hc⟩ : ∃ c, b.getLast? = some c := ⟨_, List.getLast?_eq_some_getLast hb⟩
      rw [hc] at h
      have hm := List.mem_of_getLast? hc
      have := h2 c hm
      simp at h
      omega
    rw [if_neg (by simp only [List.append_eq_nil_iff, hb, and_false, false_or]; exact hl), List.append_assoc]
    refine plain_append h1 ?_
    have := PlainText.cons (x := .blank) (l := []) (s := b ++ [10]) (t := []) (.blank h2) (by simp) .nil
    simpa using this

theorem entries_blank (trim : Bytes → Bytes) : ∀ (lines : List Line) (s : Bytes), entriesOf trim s (lines ++ [.blank]) = entriesOf trim s lines
  | [], s => rfl
  | .entry n v :: l, s => by simp [entriesOf, entries_blank trim l]
  | .header n :: l, s => by simp [entriesOf, entries_blank trim l]
  | .blank :: l, s => by simp [entriesOf, entries_blank trim l]
  | .comment :: l, s => by simp [entriesOf, entries_blank trim l]

theorem headers_blank (lines : List Line) : headersOf (lines ++ [.blank]) = headersOf lines := by simp [headersOf]

/-- Names of entries do not depend on trimming. -/
theorem entries_names (trim trim' : Bytes → Bytes) : ∀ (lines : List Line) (s : Bytes),
    (entriesOf trim s lines).map (fun x => (x.1, x.2.1)) = (entriesOf trim' s lines).map fun x => (x.1, x.2.1)
  | [], s => rfl
  | .entry n v :: l, s => by simp [entriesOf, entries_names trim trim' l s]
  | .header n :: l, s => by simp [entriesOf, entries_names trim trim' l n]
  | .blank :: l, s => by simp [entriesOf, entries_names trim trim' l s]
  | .comment :: l, s => by simp [entriesOf, entries_names trim trim' l s]

theorem doc_names (trim trim' : Bytes → Bytes) (d : Doc) :
    (d.entries trim).map (fun x => (x.1, x.2.1)) = (d.entries trim').map fun x => (x.1, x.2.1) := by
  simp only [Doc.entries, List.map_flatMap]
  congr 1
  funext it
  cases it with
  | token => rfl
  | node ty ps =>
    simp only [Item.entries]
    cases (Item.node ty ps).name with
    | none => simp
    | some s =>
      simp only [List.map_filterMap]
      congr 1
      funext p
      cases p.key <;> rfl

/-- A clean document as a file. -/
theorem clean_readable {trim : Bytes → Bytes} (htr : TrimsSpaces trim) {d : Doc} (h : Clean d) (hd : d.Distinct)
    (hsep : d.Separate) : ∃ lines, PlainText lines (readable d.text) ∧ entriesOf trim [] lines = d.entries trim ∧
      ((entriesOf id [] lines).map fun x => (x.1, x.2.1)).Nodup ∧ (sectionsOf lines).Nodup := by
  obtain ⟨lines, h1, h2, -, h4⟩ := doc_lines htr h
  have hsec : ∀ lines', headersOf lines' = headersOf lines → (sectionsOf lines').Nodup := by
    intro lines' e
    rw [sectionsOf, e, h4]
    refine List.Nodup.append (by split <;> simp) (hsep.filter _) ?_
    intro x hx hx'
    split at hx
    · simp only [List.mem_singleton] at hx; subst hx; simp at hx'
    · simp at hx
  rcases tail_readable h1 with h5 | h5
  · exact ⟨lines, h5, h2, by rw [entries_names id trim, h2, doc_names trim id]; exact hd, hsec _ rfl⟩
  · exact ⟨_, h5, (entries_blank trim _ _).trans h2, by rw [entries_names id trim, entries_blank, h2, doc_names trim id]; exact hd, hsec _ (headers_blank _)⟩

/-! The whole program, twice -/

/-- C80, partial: let expressions of tokens mean what they should, let valid names be names of sections, and let new values be such that they can be
written in a line. If the file consists of lines without repeated sections and entries, and lines with entries have no comments, then the program
panics exactly at a command that breaks it (C72), or what it saves consists of lines again, without repeated sections and entries and without
comments on lines with entries. When the program reads this text it comes to its very end, and it finds exactly the values meant by commands
and, for all other entries, those that were stated by the lines of the file. So everything that is known about the first run holds for
the next one, too.

What is missing: comments on lines with entries; files that do not consist of lines. Values that cannot be written in a line are not read
back (see `C80_value_with_sign`, `C80_value_is_a_line`). -/
theorem C80_saved_is_read_partial {re : List Nat → Option Matcher} {lexers : List Lexer} (hl : LexersOf re tokens lexers) (hs : SameMatchers re)
    {trim : Bytes → Bytes} (ht : Trims trim) (htr : TrimsSpaces trim) (valid : List Nat → Bool) (hvalid : ∀ n, valid n = true → Name [46, 45] n)
    (upper : List Nat → List Nat) (name : String) (flags : List (Flag × List Nat))
    (hacc : ∀ c ∈ commandsOf flags, Accepted valid c)
    (hval : ∀ c ∈ ofKind .setValue (commandsOf flags), ∀ n v, Assignment c n v → trim v = [] ∨ GoodValue (trim v))
    {file : Option (List Nat)} (hlen : (file.getD []).length ≤ 1048576) {lines : List Line} (hf : PlainText lines (readable (file.getD [])))
    (hd : ((entriesOf id [] lines).map fun x => (x.1, x.2.1)).Nodup) (hsep : (sectionsOf lines).Nodup)
    {es : List Edit} (hes : (Commands.of (commandsOf flags)).Mean trim es) :
    (∃ d es₁ x es₂ d₁, d.text = readable (file.getD []) ∧ es = es₁ ++ x :: es₂ ∧ Edits trim d es₁ d₁ ∧ x.Breaks d₁ ∧
      ∃ N, ∀ k, N ≤ k → editFile valid trim upper lexers k name flags file = .panic) ∨
    ∃ c text lines', (∃ N, ∀ k, N ≤ k → editFile valid trim upper lexers k name flags file = .done (.edited c text)) ∧
      PlainText lines' (readable text) ∧ ((entriesOf id [] lines').map fun x => (x.1, x.2.1)).Nodup ∧ (sectionsOf lines').Nodup ∧
      (∀ s e, statedBy trim lines' s e = es.foldl (fun f x => x.apply trim f) (statedBy trim lines) s e) ∧
      ∃ (N : Nat) (m : Mem) (F : Forest) (root : Nat) (d : Doc), (∀ k, N ≤ k → readTree upper lexers k name text = .done (.ok (m, root))) ∧
        Parsed m F root ∧ docAt (labels m.heap) F root = d ∧ d.text = readable text ∧
        ∀ s e, d.lookup trim s e = es.foldl (fun f x => x.apply trim f) (statedBy trim lines) s e := by
  obtain ⟨N, m, F, root, d, h1, h2, h3, h4, h5, h6, h7⟩ := C79_lines_are_read hl hs upper name (plain_file hf)
  obtain ⟨N', m', F', root', d', g1, g2, g3, hclean⟩ := plain_read hl hs upper name hf
  have hsame := (h1 (N + N') (by omega)).symm.trans (g1 (N + N') (by omega))
  simp only [Run.done.injEq, Except.ok.injEq, Prod.mk.injEq] at hsame
  obtain ⟨rfl, rfl⟩ := hsame
  have hF : F' = F := ConfTree.rep_unique h2.1.rep g3.1.rep
  subst hF
  obtain rfl : d = d' := h3.symm.trans g2
  rcases read_edit ht valid upper name flags hacc hlen hd hsep hes h1 h2 h3 h4 h5 h6 h7 with
    ⟨es₁, x, es₂, d₁, e1, e2, e3, e4⟩ | ⟨c, d', e1, e2, e3, -, e5, e6, e7⟩
  · exact .inl ⟨d, es₁, x, es₂, d₁, h5, e1, e2, e3, e4⟩
  · have hc' : Clean d' := edits_clean e2 (edits_ok hvalid hacc hval hes) hclean
    obtain ⟨lines', k1, k2, k3, k4⟩ := clean_readable htr hc' e6 e7
    have hst : ∀ s e, statedBy trim lines' s e = es.foldl (fun f x => x.apply trim f) (statedBy trim lines) s e := by
      intro s e
      rw [← e3, statedBy, k2, Doc.lookup]
    refine .inr ⟨c, d'.text, lines', e1, k1, k3, k4, hst, ?_⟩
    obtain ⟨N2, m2, F2, root2, d2, j1, j2, j3, -, j5, j6, -⟩ := C79_lines_are_read hl hs upper name (plain_file k1)
    refine ⟨N2, m2, F2, root2, d2, j1, j2, j3, j5, fun s e => ?_⟩
    rw [← hst, Doc.lookup, j6, statedBy]

/-! Samples -/

theorem trimBlank_spaces : TrimsSpaces trimBlank := by
  intro x a ha
  have hb : ∀ c ∈ a, isBlank c = true := fun c hc => by
    rcases ha c hc with rfl | rfl <;> rfl
  have hall : a.dropWhile isBlank = [] := List.dropWhile_eq_nil_iff.mpr hb
  simp only [trimBlank]
  rw [List.dropWhile_append]
  split
  · rename_i h
    rw [hall, List.isEmpty_iff.mp h]
  · rw [List.reverse_append, List.dropWhile_append_of_pos fun c hc => hb c (by simpa using hc)]

theorem tail_name {seps : List Nat} : ∀ (k : Nat) (s w : List Nat), s.length ≤ k → Word w → nameTail seps s = s.length → Name seps (w ++ s)
  | _, [], w, _, hw, _ => by rw [List.append_nil]; exact .word hw
  | 0, _ :: _, _, hk, _, _ => by simp at hk
  | k + 1, c :: s, w, hk, hw, h => by
    simp only [List.length_cons, Nat.add_le_add_iff_right] at hk
    rw [nameTail.eq_def] at h; dsimp only at h
    split at h
    · rename_i hc
      rw [show w ++ c :: s = (w ++ [c]) ++ s by simp]
      refine tail_name k s (w ++ [c]) hk ?_ (by simp only [List.length_cons] at h; omega)
      obtain ⟨x, y, rfl, h1, h2⟩ := hw
      refine ⟨x, y ++ [c], rfl, h1, fun d hd => ?_⟩
      rcases List.mem_append.mp hd with hd | hd
      · exact h2 d hd
      · rw [List.mem_singleton.mp hd]
        rw [Bool.or_eq_true] at hc
        rcases hc with hc | hc
        · exact .inl (letter_iff.1 hc)
        · right
          simp only [isDigit] at hc
          unfold Digit
          simpa using hc
    · cases s with
      | nil => simp at h
      | cons d s =>
        dsimp only at h
        split at h
        · rename_i hd
          refine .join hw hd.1 (tail_name k s [d] (by simp only [List.length_cons] at hk; omega) (one_letter d hd.2) ?_)
          simp only [List.length_cons] at h
          omega
        · simp at h

/-- Valid names in samples. -/
theorem confValid_name {n : List Nat} (h : confValid n = true) : Name [46, 45] n := by
  simp only [confValid, decide_eq_true_eq] at h
  unfold nameMatch at h
  split at h
  · cases h
  · split at h
    · rename_i c s hc
      refine tail_name _ s [c] (Nat.le_refl _) (one_letter c hc) ?_
      simp only [Option.some.injEq, List.length_cons] at h
      omega
    · cases h

/-- Lines of a sample. -/
theorem sample_plain : PlainText [.comment, .entry (confBytes "a") (confBytes "1 "), .header (confBytes "s")] (confBytes "#x\na = 1 \n[s]\n") := by
  have h1 : LineText .comment (confBytes "#x\n") := .comment (a := []) (by simp [Spaces]) ⟨confBytes "x", by decide, rfl⟩
  have h2 : LineText (.entry (confBytes "a") (confBytes "1 ")) (confBytes "a = 1 \n") :=
    .entry (a := []) (b := [32]) (d := [32]) (e := [10]) (by simp [Spaces]) (.word (one_letter 97 rfl)) (by simp [Spaces]) (by simp [Spaces])
      ⟨49, [32], rfl, by decide, by decide⟩ (.inl rfl)
  have h3 : LineText (.header (confBytes "s")) (confBytes "[s]\n") :=
    .header (a := []) (b := []) (d := []) (e := []) (by simp [Spaces]) (by simp [Spaces]) (.word (one_letter 115 rfl)) (by simp [Spaces]) (by simp [Spaces])
  exact .cons h1 (by simp) (.cons h2 (fun _ _ _ => by decide) (.cons h3 (by simp) .nil))

/-- The hypotheses of `C80_saved_is_read_partial` hold for the commands `-s s.b=2 3`. -/
example : LexersOf confRe tokens confLexers ∧ SameMatchers confRe ∧ Trims trimBlank ∧ TrimsSpaces trimBlank ∧
    (∀ n, confValid n = true → Name [46, 45] n) ∧ (∀ c ∈ commandsOf [(Flag.s, confBytes "s.b=2 3")], Accepted confValid c) ∧
    (∀ c ∈ ofKind .setValue (commandsOf [(Flag.s, confBytes "s.b=2 3")]), ∀ n v, Assignment c n v → trimBlank v = [] ∨ GoodValue (trimBlank v)) ∧
    readable (confBytes "#x\r\na = 1 \n[s]") = confBytes "#x\na = 1 \n[s]\n" ∧
    ((entriesOf id [] [.comment, .entry (confBytes "a") (confBytes "1 "), .header (confBytes "s")]).map fun x => (x.1, x.2.1)).Nodup ∧
    (sectionsOf [.comment, .entry (confBytes "a") (confBytes "1 "), .header (confBytes "s")]).Nodup ∧
    (Commands.of (commandsOf [(Flag.s, confBytes "s.b=2 3")])).Mean trimBlank [.set (confBytes "s") (confBytes "b") (confBytes "2 3")] := by
  have hass : Assignment (confBytes "s.b=2 3") (confBytes "s.b") (confBytes "2 3") := .full (confBytes "s.b") (confBytes "2 3") (by decide)
  refine ⟨confLexers_of, fun _ _ _ _ => rfl, trimBlank_trims, trimBlank_spaces, fun n => confValid_name, ?_, ?_, by decide +kernel, by decide +kernel, by decide +kernel,
    ⟨[], [_], .nil, .cons ⟨confBytes "s.b", confBytes "2 3", confBytes "s", confBytes "b", hass, .full (confBytes "s") (confBytes "b") (by decide), rfl⟩ .nil, ?_⟩⟩
  · intro c hc
    simp only [commandsOf, List.map_cons, List.map_nil, List.mem_singleton] at hc
    subst hc
    exact ⟨confBytes "s.b", confBytes "2 3", hass, by decide⟩
  · intro c hc n v h
    simp only [commandsOf, List.map_cons, List.map_nil, ofKind, List.filter, List.mem_singleton, decide_eq_true_eq] at hc
    have : c = confBytes "s.b=2 3" := by simpa [kindOf] using hc
    subst this
    obtain ⟨rfl, rfl⟩ := assignment_same h hass
    exact .inr ⟨⟨50, confBytes " 3", rfl, by decide, by decide⟩, by decide⟩
  · rfl

/-- C80: a value with the sign of comments is cut when it is read: after `-s a=1#2` the value is `1`, `-s a=1` changes nothing, and `-s a=3` leaves the
rest of the former value. -/
theorem C80_value_with_sign : saved [(.s, "a=1#2")] "" = some (confBytes "a=1#2\n") ∧ saved [(.s, "a=1")] "a=1#2\n" = none ∧
    opened "a=1#2\n" = .ok (confBytes "a=1#2\n") ∧ saved [(.s, "a=3")] "a=1#2\n" = some (confBytes "a=3#2\n") := by
  decide +kernel

/-- C80: a value with a line feed becomes two lines, there is another entry when the file is read. -/
theorem C80_value_is_a_line : saved [(.s, "a=1\nb=2")] "" = some (confBytes "a=1\nb=2\n") ∧ saved [(.c, "b")] "a=1\nb=2\n" = some (confBytes "a=1\n") := by
  decide +kernel

/-- C80: comments on lines with entries matter: if the value before the comment is cleared then the next line becomes the value, and it is lost
with the entry: `-s a=`, then `-c a`. -/
theorem C80_cleared_before_comment : saved [(.s, "a=")] "a=1#y\nb=2\n" = some (confBytes "a=#y\nb=2\n") ∧ saved [(.c, "a")] "a=#y\nb=2\n" = some [] := by
  decide +kernel

end Verif.Props.Conf
