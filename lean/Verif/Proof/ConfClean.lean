/-
The configuration editor: documents that can be written as lines.
-/
import Verif.Spec.ConfText

namespace Verif.Proof.Conf

open Verif Verif.Spec Verif.Spec.Conf

/-- A token of spaces. -/
def SpaceTok (t : Tok) : Prop := t.type = "space" ∧ Spaces t.text

/-- A token of spaces or a comment. -/
def SideTok (t : Tok) : Prop := SpaceTok t ∨ t.type = "comment" ∧ CommentText t.text ∧ 13 ∉ t.text

/-- The end of a line. -/
def nlTok : Tok := ⟨"nl", [10]⟩

/-- What may come between the sign and the end of the line. -/
inductive ValueToks : List Tok → Prop
  | none {w : List Tok} : (∀ t ∈ w, SpaceTok t) → ValueToks w
  | some {w y : List Tok} {v : Bytes} : (∀ t ∈ w, SpaceTok t) → GoodValue v → (∀ t ∈ y, SpaceTok t) → ValueToks (w ++ ⟨"value", v⟩ :: y)

/-- Tokens of an entry. -/
inductive EntryToks : List Tok → Prop
  | mk {n : Bytes} {u w : List Tok} : Name [45] n → (∀ t ∈ u, SpaceTok t) → ValueToks w → EntryToks (⟨"name", n⟩ :: (u ++ ⟨"op", [61]⟩ :: (w ++ [nlTok])))

/-- Tokens of a header. -/
inductive HeaderToks : List Tok → Prop
  | mk {n : Bytes} {u w z : List Tok} : Name [46, 45] n → (∀ t ∈ u, SpaceTok t) → (∀ t ∈ w, SpaceTok t) → (∀ t ∈ z, SpaceTok t) →
      HeaderToks (⟨"op", [91]⟩ :: (u ++ ⟨"sec-name", n⟩ :: (w ++ ⟨"op", [93]⟩ :: (z ++ [nlTok]))))

/-- Parts of sections. -/
inductive PartClean : Part → Prop
  | side {t : Tok} : SideTok t → PartClean (.token t)
  | sep : PartClean sepPart
  | entry {l : List Tok} : EntryToks l → PartClean (.node "entry" l)

/-- Side tokens and sections. -/
inductive ItemClean : Item → Prop
  | side {t : Tok} : SideTok t → ItemClean (.token t)
  | default {ps : List Part} : (∀ p ∈ ps, PartClean p) → ItemClean (.node "def-section" ps)
  | section {l : List Tok} {ps : List Part} : HeaderToks l → (∀ p ∈ ps, PartClean p) → ItemClean (.node "section" (.node "header" l :: ps))

/-- The kind of an item: a side token, the default section, any other section. -/
def itemKind : Item → Nat
  | .token _ => 0
  | .node ty _ => if ty = "def-section" then 1 else 2

/-- Documents that can be written as lines: the default section is the first one. -/
structure Clean (d : Doc) : Prop where
  items : ∀ it ∈ d, ItemClean it
  first : (d.map itemKind).Pairwise fun a b => b = 1 → a = 0

/-! Texts -/

/-- Text of tokens. -/
def textOf (l : List Tok) : Bytes := l.flatMap Tok.text

/-- A text of lines, there may be spaces after them. -/
def Tail (lines : List Line) (t : Bytes) : Prop := ∃ t0 b, t = t0 ++ b ∧ PlainText lines t0 ∧ Spaces b ∧ 13 ∉ t

theorem spaces_append {a b : Bytes} (ha : Spaces a) (hb : Spaces b) : Spaces (a ++ b) := by
  intro c hc
  rcases List.mem_append.mp hc with h | h
  · exact ha c h
  · exact hb c h

theorem spaces_text {u : List Tok} (h : ∀ t ∈ u, SpaceTok t) : Spaces (textOf u) := by
  intro c hc
  obtain ⟨t, ht, hc⟩ := List.mem_flatMap.mp hc
  exact (h t ht).2 c hc

theorem spaces_noReturn {a : Bytes} (h : Spaces a) : 13 ∉ a := fun hc => by have := h 13 hc; omega

theorem spaces_noSign {a : Bytes} (h : Spaces a) : 35 ∉ a := fun hc => by have := h 35 hc; omega

theorem line_space {x : Line} {s a : Bytes} (ha : Spaces a) (h : LineText x s) : LineText x (a ++ s) := by
  cases h with
  | blank h => rw [← List.append_assoc]; exact .blank (spaces_append ha h)
  | comment h h' => rw [← List.append_assoc]; exact .comment (spaces_append ha h) h'
  | entry h h1 h2 h3 h4 h5 => rw [← List.append_assoc]; exact .entry (spaces_append ha h) h1 h2 h3 h4 h5
  | unset h h1 h2 h3 => rw [← List.append_assoc]; exact .unset (spaces_append ha h) h1 h2 h3
  | header h h1 h2 h3 h4 => rw [← List.append_assoc]; exact .header (spaces_append ha h) h1 h2 h3 h4

theorem tail_space {lines : List Line} {t a : Bytes} (ha : Spaces a) (h : Tail lines t) : Tail lines (a ++ t) := by
  obtain ⟨t0, b, rfl, h1, h2, h3⟩ := h
  have hr : 13 ∉ a ++ (t0 ++ b) := by
    rw [List.mem_append]
    rintro (h | h)
    · exact spaces_noReturn ha h
    · exact h3 h
  cases h1 with
  | nil => exact ⟨[], a ++ b, by simp, .nil, spaces_append ha h2, hr⟩
  | @cons x l s t hx hp hl =>
    refine ⟨(a ++ s) ++ t, b, by simp, .cons (line_space ha hx) (fun n v e => ?_) hl, h2, hr⟩
    rw [List.mem_append]
    rintro (h | h)
    · exact spaces_noSign ha h
    · exact hp n v e h

theorem tail_line {x : Line} {s : Bytes} (hx : LineText x s) (hp : ∀ n v, x = .entry n v → 35 ∉ s) (hr : 13 ∉ s) {lines : List Line} {t : Bytes} (h : Tail lines t) :
    Tail (x :: lines) (s ++ t) := by
  obtain ⟨t0, b, rfl, h1, h2, h3⟩ := h
  refine ⟨s ++ t0, b, by simp, .cons hx hp h1, h2, ?_⟩
  rw [List.mem_append]
  rintro (h | h)
  · exact hr h
  · exact h3 h

theorem name_chars {signs n : List Nat} (hs : ∀ c ∈ signs, c = 45 ∨ c = 46) (h : Name signs n) : 13 ∉ n ∧ 35 ∉ n ∧ 10 ∉ n ∧ n ≠ [] := by
  have hw : ∀ {w}, Word w → ∀ c ∈ w, Letter c ∨ Digit c := by
    rintro w ⟨c, s, rfl, h1, h2⟩ d hd
    rcases List.mem_cons.mp hd with rfl | hd
    · exact .inl h1
    · exact h2 d hd
  have key : ∀ c ∈ n, Letter c ∨ Digit c ∨ c = 45 ∨ c = 46 := by
    induction h with
    | word h => intro c hc; rcases hw h c hc with h | h <;> simp [h]
    | join h h1 _ ih =>
      intro c hc
      simp only [List.mem_append, List.mem_cons] at hc
      rcases hc with hc | rfl | hc
      · rcases hw h c hc with h | h <;> simp [h]
      · rcases hs _ h1 with h | h <;> simp [h]
      · exact ih c hc
  refine ⟨fun h => ?_, fun h => ?_, fun h => ?_, ?_⟩
  · have := key _ h; unfold Letter Digit at this; omega
  · have := key _ h; unfold Letter Digit at this; omega
  · have := key _ h; unfold Letter Digit at this; omega
  · cases h with
    | word h => obtain ⟨c, s, rfl, -⟩ := h; simp
    | join => simp

theorem firstText_skip {ty : String} {u l : List Tok} (h : ∀ t ∈ u, t.type ≠ ty) : firstText ty (u ++ l) = firstText ty l := by
  induction u with
  | nil => rfl
  | cons t u ih =>
    have := h t (by simp)
    rw [← ih fun t ht => h t (by simp [ht])]
    simp [firstText, this]

theorem space_not {ty : String} (hty : ty ≠ "space") {u : List Tok} (h : ∀ t ∈ u, SpaceTok t) : ∀ t ∈ u, t.type ≠ ty := by
  intro t ht
  rw [(h t ht).1]
  exact hty.symm

theorem textOf_append (a b : List Tok) : textOf (a ++ b) = textOf a ++ textOf b := by simp [textOf]

theorem textOf_cons (t : Tok) (l : List Tok) : textOf (t :: l) = t.text ++ textOf l := by simp [textOf]

/-- An entry is a line. -/
theorem entry_line {trim : Bytes → Bytes} (htr : TrimsSpaces trim) {l : List Tok} (h : EntryToks l) :
    ∃ n v, LineText (.entry n v) (textOf l) ∧ 35 ∉ textOf l ∧ 13 ∉ textOf l ∧ firstText "name" l = some n ∧
      ((firstText "value" l).map trim).getD [] = if v = [] then [] else trim v := by
  obtain ⟨hn, hu, hw⟩ := h
  rename_i n u w
  obtain ⟨n1, n2, -, n4⟩ := name_chars (by simp) hn
  have su := spaces_text hu
  have hfirst : firstText "name" (⟨"name", n⟩ :: (u ++ ⟨"op", [61]⟩ :: (w ++ [nlTok]))) = some n := by simp [firstText]
  have hval : firstText "value" (⟨"name", n⟩ :: (u ++ ⟨"op", [61]⟩ :: (w ++ [nlTok]))) = firstText "value" (w ++ [nlTok]) := by
    rw [← List.singleton_append, firstText_skip (by simp), firstText_skip (space_not (by decide) hu), ← List.singleton_append, firstText_skip (by simp)]
  cases hw with
  | none hw =>
    have sw := spaces_text hw
    refine ⟨n, [], ?_, ?_, ?_, hfirst, ?_⟩
    · have := LineText.unset (a := []) (by simp [Spaces]) hn su sw
      simpa [textOf_cons, textOf_append, nlTok, textOf] using this
    · have h1 := spaces_noSign su
      have h2 := spaces_noSign sw
      simp only [textOf_cons, textOf_append, List.mem_append, List.mem_singleton]
      simp [textOf, nlTok] at h1 h2 ⊢
      tauto
    · have h1 := spaces_noReturn su
      have h2 := spaces_noReturn sw
      simp only [textOf_cons, textOf_append, List.mem_append, List.mem_singleton]
      simp [textOf, nlTok] at h1 h2 ⊢
      tauto
    · rw [hval, firstText_skip (space_not (by decide) hw)]
      simp [firstText, nlTok]
  | @some w y v hw hv hy =>
    have sw := spaces_text hw
    have sy := spaces_text hy
    obtain ⟨hv, hr⟩ := hv
    have hv' : ValueText (v ++ textOf y) := by
      obtain ⟨c, s, rfl, h1, h2⟩ := hv
      refine ⟨c, s ++ textOf y, rfl, h1, fun d hd => ?_⟩
      rcases List.mem_append.mp hd with hd | hd
      · exact h2 d hd
      · have := sy d hd; omega
    have h35 : 35 ∉ v := by
      obtain ⟨c, s, rfl, h1, h2⟩ := hv
      intro h
      rcases List.mem_cons.mp h with rfl | h
      · simp at h1
      · exact (h2 _ h).2 rfl
    have hne : v ≠ [] := by obtain ⟨c, s, rfl, -⟩ := hv; simp
    refine ⟨n, v ++ textOf y, ?_, ?_, ?_, hfirst, ?_⟩
    · have := LineText.entry (a := []) (e := [10]) (by simp [Spaces]) hn su sw hv' (.inl rfl)
      simpa [textOf_cons, textOf_append, nlTok, textOf] using this
    · have h1 := spaces_noSign su
      have h2 := spaces_noSign sw
      have h3 := spaces_noSign sy
      simp only [textOf_cons, textOf_append, List.mem_append, List.mem_singleton]
      simp [textOf, nlTok] at h1 h2 h3 ⊢
      tauto
    · have h1 := spaces_noReturn su
      have h2 := spaces_noReturn sw
      have h3 := spaces_noReturn sy
      simp only [textOf_cons, textOf_append, List.mem_append, List.mem_singleton]
      simp [textOf, nlTok] at h1 h2 h3 ⊢
      tauto
    · rw [hval, List.append_assoc, firstText_skip (space_not (by decide) hw), if_neg (by simp [hne]), htr v _ sy]
      simp [firstText]

/-- A header is a line. -/
theorem header_line {l : List Tok} (h : HeaderToks l) :
    ∃ n, LineText (.header n) (textOf l) ∧ 13 ∉ textOf l ∧ n ≠ [] ∧ ∀ l', firstText "sec-name" (l ++ l') = some n := by
  obtain ⟨hn, hu, hw, hz⟩ := h
  rename_i n u w z
  obtain ⟨n1, -, -, n4⟩ := name_chars (by simp) hn
  have su := spaces_text hu
  have sw := spaces_text hw
  have sz := spaces_text hz
  refine ⟨n, ?_, ?_, n4, fun l' => ?_⟩
  · have := LineText.header (a := []) (by simp [Spaces]) su hn sw sz
    simpa [textOf_cons, textOf_append, nlTok, textOf] using this
  · have h1 := spaces_noReturn su
    have h2 := spaces_noReturn sw
    have h3 := spaces_noReturn sz
    simp only [textOf_cons, textOf_append, List.mem_append, List.mem_singleton]
    simp [textOf, nlTok] at h1 h2 h3 ⊢
    tauto
  · rw [List.cons_append, ← List.singleton_append, firstText_skip (by simp), List.append_assoc, firstText_skip (space_not (by decide) hu)]
    simp [firstText]

/-! Documents -/

/-- Entries stated by parts. -/
def partEntries (trim : Bytes → Bytes) (s : Bytes) (ps : List Part) : List (Bytes × Bytes × Bytes) := ps.filterMap fun p => p.key.map fun e => (s, e, p.value trim)

theorem parts_lines {trim : Bytes → Bytes} (htr : TrimsSpaces trim) {ps : List Part} (h : ∀ p ∈ ps, PartClean p) :
    ∃ xs, (∀ lines t, Tail lines t → Tail (xs ++ lines) (textOf (ps.flatMap Part.toks) ++ t)) ∧ headersOf xs = [] ∧
      ∀ s lines, entriesOf trim s (xs ++ lines) = partEntries trim s ps ++ entriesOf trim s lines := by
  induction ps with
  | nil => exact ⟨[], fun lines t h => by simpa [textOf] using h, rfl, fun s lines => rfl⟩
  | cons p ps ih =>
    obtain ⟨xs, h1, h2, h3⟩ := ih fun p hp => h p (by simp [hp])
    have htext : ∀ t, textOf ((p :: ps).flatMap Part.toks) ++ t = textOf p.toks ++ (textOf (ps.flatMap Part.toks) ++ t) := by
      intro t
      rw [List.flatMap_cons, textOf_append, List.append_assoc]
    cases h p (by simp) with
    | @side t hs =>
      have hk : ∀ s, partEntries trim s (.token t :: ps) = partEntries trim s ps := fun s => rfl
      have ht : textOf (Part.token t).toks = t.text := by simp [textOf, Part.toks]
      rcases hs with hs | ⟨-, hs, hr⟩
      · exact ⟨xs, fun lines t' h' => by rw [htext, ht]; exact tail_space hs.2 (h1 lines t' h'), h2, fun s lines => by rw [hk, h3]⟩
      · refine ⟨.comment :: xs, fun lines t' h' => ?_, by simpa [headersOf] using h2, fun s lines => by rw [hk, ← h3]; rfl⟩
        rw [htext, ht]
        exact tail_line (.comment (a := []) (by simp [Spaces]) hs) (by simp) hr (h1 lines t' h')
    | sep =>
      have hk : ∀ s, partEntries trim s (sepPart :: ps) = partEntries trim s ps := fun s => rfl
      refine ⟨.blank :: xs, fun lines t' h' => ?_, by simpa [headersOf] using h2, fun s lines => by rw [hk, ← h3]; rfl⟩
      rw [htext]
      exact tail_line (.blank (a := []) (by simp [Spaces])) (by simp) (by decide) (h1 lines t' h')
    | @entry l hl =>
      obtain ⟨n, v, g1, g2, g3, g4, g5⟩ := entry_line htr hl
      refine ⟨.entry n v :: xs, fun lines t' h' => ?_, by simpa [headersOf] using h2, fun s lines => ?_⟩
      · rw [htext]
        exact tail_line g1 (fun _ _ _ => g2) g3 (h1 lines t' h')
      · have hk : partEntries trim s (.node "entry" l :: ps) = (s, n, if v = [] then [] else trim v) :: partEntries trim s ps := by
          simp [partEntries, Part.key, g4, Part.value, Part.toks, g5]
        rw [hk, List.cons_append, List.cons_append, ← h3]
        rfl

theorem clean_entries {trim : Bytes → Bytes} {ty : String} {ps : List Part} {s : Bytes} (h : (Item.node ty ps).name = some s) :
    (Item.node ty ps).entries trim = partEntries trim s ps := by
  unfold Item.entries partEntries
  dsimp only
  rw [h]
  congr 1
  funext p
  cases p.key <;> rfl

theorem clean_tail {d : Doc} {it : Item} (h : Clean (it :: d)) : Clean d :=
  ⟨fun x hx => h.items x (by simp [hx]), by have := h.first; rw [List.map_cons, List.pairwise_cons] at this; exact this.2⟩

/-- A clean document is a text of lines. -/
theorem doc_lines {trim : Bytes → Bytes} (htr : TrimsSpaces trim) {d : Doc} (h : Clean d) :
    ∃ lines, Tail lines d.text ∧ entriesOf trim [] lines = d.entries trim ∧
      ((∀ it ∈ d, itemKind it ≠ 1) → ∀ s, entriesOf trim s lines = d.entries trim) ∧ headersOf lines = (d.filterMap Item.name).filter (· ≠ []) := by
  induction d with
  | nil => exact ⟨[], ⟨[], [], rfl, .nil, by simp [Spaces], by simp [Doc.text]⟩, rfl, fun _ s => rfl, rfl⟩
  | cons it d ih =>
    obtain ⟨lines, h1, h2, h3, h4⟩ := ih (clean_tail h)
    have hfirst := h.first
    rw [List.map_cons, List.pairwise_cons] at hfirst
    have htext : Doc.text (it :: d) = textOf it.toks ++ Doc.text d := by simp [Doc.text, textOf]
    have hent : Doc.entries trim (it :: d) = it.entries trim ++ Doc.entries trim d := by simp [Doc.entries]
    cases h.items it (by simp) with
    | @side t hs =>
      have ht : textOf (Item.token t).toks = t.text := by simp [textOf, Item.toks]
      have he : (Item.token t).entries trim = [] := rfl
      have key : ∀ lines', (∀ s, entriesOf trim s lines' = entriesOf trim s lines) → headersOf lines' = headersOf lines → Tail lines' (t.text ++ Doc.text d) →
          ∃ lines, Tail lines (Doc.text (.token t :: d)) ∧ entriesOf trim [] lines = Doc.entries trim (.token t :: d) ∧
            ((∀ it ∈ Item.token t :: d, itemKind it ≠ 1) → ∀ s, entriesOf trim s lines = Doc.entries trim (.token t :: d)) ∧
            headersOf lines = ((Item.token t :: d).filterMap Item.name).filter (· ≠ []) := by
        intro lines' g1 g2 g3
        refine ⟨lines', by rw [htext, ht]; exact g3, ?_, fun hs s => ?_, ?_⟩
        · rw [g1, hent, he, List.nil_append, h2]
        · rw [g1, hent, he, List.nil_append]
          exact h3 (fun it hi => hs it (by simp [hi])) s
        · rw [g2, h4]; rfl
      rcases hs with hs | ⟨-, hs, hr⟩
      · exact key lines (fun _ => rfl) rfl (tail_space hs.2 h1)
      · exact key (.comment :: lines) (fun _ => rfl) rfl (tail_line (.comment (a := []) (by simp [Spaces]) hs) (by simp) hr h1)
    | @default ps hps =>
      obtain ⟨xs, g1, g2, g3⟩ := parts_lines htr hps
      have hd : ∀ x ∈ d, itemKind x ≠ 1 := fun x hx e => by
        have := hfirst.1 (itemKind x) (List.mem_map_of_mem hx) e
        simp [itemKind] at this
      refine ⟨xs ++ lines, ?_, ?_, fun hn => absurd rfl (hn (.node "def-section" ps) (by simp)), ?_⟩
      · rw [htext]
        exact g1 lines _ h1
      · rw [g3, hent, clean_entries (s := []) (by simp [Item.name]), h3 hd]
      · have : headersOf (xs ++ lines) = headersOf xs ++ headersOf lines := by simp [headersOf]
        rw [this, g2, h4]
        simp [Item.name]
    | @«section» l ps hl hps =>
      obtain ⟨xs, g1, g2, g3⟩ := parts_lines htr hps
      obtain ⟨n, l1, l2, l3, l4⟩ := header_line hl
      have hd : ∀ x ∈ d, itemKind x ≠ 1 := fun x hx e => by
        have := hfirst.1 (itemKind x) (List.mem_map_of_mem hx) e
        simp [itemKind] at this
      have hname : (Item.node "section" (.node "header" l :: ps)).name = some n := by
        simp only [Item.name, List.flatMap_cons, Part.toks]
        rw [if_neg (by decide), l4]
      have hent' : ∀ s, entriesOf trim s (.header n :: (xs ++ lines)) = Doc.entries trim (.node "section" (.node "header" l :: ps) :: d) := by
        intro s
        rw [entriesOf, g3, hent, clean_entries hname, h3 hd]
        congr 1
      refine ⟨.header n :: (xs ++ lines), ?_, hent' _, fun _ => hent', ?_⟩
      · rw [htext]
        have : textOf (Item.node "section" (.node "header" l :: ps)).toks = textOf l ++ textOf (ps.flatMap Part.toks) := by
          simp only [Item.toks, List.flatMap_cons, Part.toks, textOf_append]
        rw [this, List.append_assoc]
        exact tail_line l1 (by simp) l2 (g1 lines _ h1)
      · have : headersOf (.header n :: (xs ++ lines)) = n :: (headersOf xs ++ headersOf lines) := by simp [headersOf]
        rw [this, g2, h4, List.filterMap_cons, hname]
        simp [l3]

/-! Edits -/

/-- Names and values of an edit that can be written. -/
def EditOk : Edit → Prop
  | .set s e v => (s = [] ∨ Name [46, 45] s) ∧ Name [45] e ∧ (v = [] ∨ GoodValue v)
  | .addSection s => s = [] ∨ Name [46, 45] s
  | .remove _ _ => True
  | .removeSection _ => True

theorem entryPart_clean {e v : Bytes} (he : Name [45] e) (hv : v = [] ∨ GoodValue v) : PartClean (entryPart e v) := by
  refine .entry ?_
  rcases hv with rfl | hv
  · exact EntryToks.mk (u := []) (w := []) he (by simp) (.none (by simp))
  · have hne : v ≠ [] := by obtain ⟨⟨c, s, rfl, -⟩, -⟩ := hv; simp
    rw [if_neg hne]
    exact EntryToks.mk (u := []) he (by simp) (.some (w := []) (y := []) (by simp) hv (by simp))

theorem headerPart_clean {s : Bytes} (hs : Name [46, 45] s) : HeaderToks [⟨"op", [91]⟩, ⟨"sec-name", s⟩, ⟨"op", [93]⟩, ⟨"nl", [10]⟩] :=
  HeaderToks.mk (u := []) (w := []) (z := []) hs (by simp) (by simp) (by simp)

/-- A new value in an entry. -/
theorem assigns_clean {v : Bytes} {l l' : List Tok} (h : Assigns v l l') (hl : EntryToks l) (hv : v = [] ∨ GoodValue v) : EntryToks l' := by
  obtain ⟨hn, hu, hw⟩ := hl
  rename_i n u w
  have nv : ∀ {u : List Tok}, (∀ t ∈ u, SpaceTok t) → ∀ t ∈ u, t.type ≠ "value" := fun h => space_not (by decide) h
  -- where the value is
  have find : ∀ {w0 y0 : List Tok} {v0 : Bytes} {a b : List Tok} {old : Bytes}, (∀ t ∈ w0, SpaceTok t) → (∀ t ∈ y0, SpaceTok t) →
      (⟨"name", n⟩ :: (u ++ ⟨"op", [61]⟩ :: ((w0 ++ ⟨"value", v0⟩ :: y0) ++ [nlTok])) : List Tok) = a ++ ⟨"value", old⟩ :: b →
      a = ⟨"name", n⟩ :: (u ++ ⟨"op", [61]⟩ :: w0) ∧ b = y0 ++ [nlTok] := by
    intro w0 y0 v0 a b old h1 h2 e
    have e' : (⟨"name", n⟩ :: (u ++ ⟨"op", [61]⟩ :: w0) : List Tok) ++ ⟨"value", v0⟩ :: (y0 ++ [nlTok]) = a ++ ⟨"value", old⟩ :: b := by
      rw [← e]; simp
    have hno : ∀ t ∈ (⟨"name", n⟩ :: (u ++ ⟨"op", [61]⟩ :: w0) : List Tok), t.type ≠ "value" := by
      intro t ht
      simp only [List.mem_cons, List.mem_append] at ht
      rcases ht with rfl | ht | rfl | ht
      · simp
      · exact nv hu t ht
      · decide
      · exact nv h1 t ht
    have hno' : ∀ t ∈ (y0 ++ [nlTok] : List Tok), t.type ≠ "value" := by
      intro t ht
      rcases List.mem_append.mp ht with ht | ht
      · exact nv h2 t ht
      · rw [List.mem_singleton.mp ht]; decide
    rcases List.append_eq_append_iff.mp e' with ⟨c, rfl, e2⟩ | ⟨c, e1, e2⟩
    · cases c with
      | nil => simp only [List.nil_append, List.cons.injEq] at e2; simp [e2.2]
      | cons t c =>
        simp only [List.cons_append, List.cons.injEq] at e2
        exact absurd rfl (hno' ⟨"value", old⟩ (by rw [e2.2]; simp))
    · cases c with
      | nil => simp only [List.nil_append, List.cons.injEq] at e2; simp_all
      | cons t c =>
        simp only [List.cons_append, List.cons.injEq] at e2
        exact absurd (e2.1 ▸ rfl) (hno t (by rw [e1]; simp))
  have none_value : ∀ {w : List Tok}, (∀ t ∈ w, SpaceTok t) → ∀ t ∈ (⟨"name", n⟩ :: (u ++ ⟨"op", [61]⟩ :: (w ++ [nlTok])) : List Tok), t.type ≠ "value" := by
    intro w hw t ht
    simp only [List.mem_cons, List.mem_append, List.not_mem_nil, or_false] at ht
    rcases ht with rfl | ht | rfl | ht | rfl
    · simp
    · exact nv hu t ht
    · decide
    · exact nv hw t ht
    · decide
  generalize hL : (⟨"name", n⟩ :: (u ++ ⟨"op", [61]⟩ :: (w ++ [nlTok])) : List Tok) = L at h
  cases h with
  | replace a b old hne =>
    have hv : GoodValue v := hv.resolve_left hne
    cases hw with
    | none hw => exact absurd rfl (none_value hw ⟨"value", old⟩ (by rw [hL]; simp))
    | @some w y v0 h1 h2 h3 =>
      obtain ⟨rfl, rfl⟩ := find h1 h3 hL
      have := EntryToks.mk hn hu (.some h1 hv h3)
      simpa using this
  | clear a b old _ =>
    cases hw with
    | none hw => exact absurd rfl (none_value hw ⟨"value", old⟩ (by rw [hL]; simp))
    | @some w y v0 h1 h2 h3 =>
      obtain ⟨rfl, rfl⟩ := find h1 h3 hL
      have := EntryToks.mk hn hu (.none (w := w ++ y) (by simp only [List.mem_append]; rintro t (ht | ht); exacts [h1 t ht, h3 t ht]))
      simpa using this
  | fill m a b o hne hnv hno =>
    have hv : GoodValue v := hv.resolve_left hne
    cases hw with
    | @some w y v0 h1 h2 h3 =>
      have hm : (⟨"value", v0⟩ : Tok) ∈ m :: a ++ ⟨"op", o⟩ :: b := by rw [← hL]; simp
      have : (⟨"value", v0⟩ : Tok) ∈ m :: a ++ b := by
        simp only [List.mem_append, List.mem_cons] at hm ⊢
        rcases hm with hm | hm | hm
        · exact .inl hm
        · simp at hm
        · exact .inr hm
      exact absurd rfl (hnv _ this)
    | none hw =>
      simp only [List.cons_append, List.cons.injEq] at hL
      obtain ⟨rfl, e⟩ := hL
      have hno' : ∀ t ∈ u, t.type ≠ "op" := space_not (by decide) hu
      have hab : a = u ∧ b = w ++ [nlTok] ∧ o = [61] := by
        rcases List.append_eq_append_iff.mp e with ⟨c, e1, e2⟩ | ⟨c, e1, e2⟩
        · cases c with
          | nil => simp only [List.nil_append, List.cons.injEq, Tok.mk.injEq, true_and] at e2; simp [e1, e2]
          | cons t c =>
            simp only [List.cons_append, List.cons.injEq] at e2
            exact absurd rfl (hno ⟨"op", [61]⟩ (by rw [e1, e2.1]; simp))
        · cases c with
          | nil => simp only [List.nil_append, List.cons.injEq, Tok.mk.injEq, true_and] at e2; simp [e1, e2]
          | cons t c =>
            simp only [List.cons_append, List.cons.injEq] at e2
            exact absurd rfl (hno' ⟨"op", o⟩ (by rw [e1, e2.1]; simp))
      obtain ⟨rfl, rfl, rfl⟩ := hab
      have := EntryToks.mk hn hu (.some (w := []) (by simp) hv hw)
      simpa using this

/-- Parts of a section are changed after its header. -/
theorem item_parts {ty : String} {p x q x' : List Part} (h : ItemClean (.node ty (p ++ (x ++ q)))) (hx : ∀ y ∈ x', PartClean y)
    (hh : ∀ l r, x ++ q = .node "header" l :: r → p ≠ []) : ItemClean (.node ty (p ++ (x' ++ q))) := by
  generalize hL : p ++ (x ++ q) = L at h
  have mem : ∀ {p : List Part}, (∀ y ∈ p ++ (x ++ q), PartClean y) → ∀ y ∈ p ++ (x' ++ q), PartClean y := by
    intro p h y hy
    simp only [List.mem_append] at hy
    rcases hy with hy | hy | hy
    · exact h y (by simp [hy])
    · exact hx y hy
    · exact h y (by simp [hy])
  cases h with
  | default h => exact .default (mem (hL ▸ h))
  | @«section» l ps hl h =>
    cases p with
    | nil => exact absurd rfl (hh l ps hL)
    | cons y p =>
      simp only [List.cons_append, List.cons.injEq] at hL
      obtain ⟨rfl, rfl⟩ := hL
      exact .section hl (mem h)

theorem item_part {ty : String} {ps : List Part} (h : ItemClean (.node ty ps)) (p : Part) (hp : p ∈ ps) : PartClean p ∨ ∃ l, p = .node "header" l := by
  cases h with
  | default h => exact .inl (h p hp)
  | @«section» l ps hl h =>
    rcases List.mem_cons.mp hp with rfl | hp
    · exact .inr ⟨l, rfl⟩
    · exact .inl (h p hp)

theorem clean_replace {a b : Doc} {it it' : Item} (h : Clean (a ++ it :: b)) (hi : ItemClean it → ItemClean it') (hk : itemKind it' = itemKind it) :
    Clean (a ++ it' :: b) := by
  refine ⟨fun x hx => ?_, ?_⟩
  · simp only [List.mem_append, List.mem_cons] at hx
    rcases hx with hx | rfl | hx
    · exact h.items x (by simp [hx])
    · exact hi (h.items it (by simp))
    · exact h.items x (by simp [hx])
  · have := h.first
    simpa [hk] using this

theorem mapLast_mem {f : Item → Item} {d : Doc} {x : Item} (h : x ∈ mapLast f d) : x ∈ d ∨ ∃ y ∈ d, x = f y := by
  induction d with
  | nil => cases h
  | cons y d ih =>
    cases d with
    | nil => exact .inr ⟨y, by simp, by simpa [mapLast] using h⟩
    | cons z d =>
      rw [mapLast] at h
      rcases List.mem_cons.mp h with rfl | h
      · exact .inl (by simp)
      · rcases ih h with h | ⟨w, hw, e⟩
        · exact .inl (by simp [List.mem_cons.mp h])
        · exact .inr ⟨w, by simp [List.mem_cons.mp hw], e⟩

theorem mapLast_map {f : Item → Item} (hf : ∀ x, itemKind (f x) = itemKind x) (d : Doc) : (mapLast f d).map itemKind = d.map itemKind := by
  induction d with
  | nil => rfl
  | cons y d ih =>
    cases d with
    | nil => simp [mapLast, hf]
    | cons z d => rw [mapLast, List.map_cons, ih]; rfl

theorem close_kind (x : Item) : itemKind x.close = itemKind x := by
  cases x with
  | token t => rfl
  | node ty ps => simp only [Item.close]; split <;> rfl

theorem unclose_kind (x : Item) : itemKind x.unclose = itemKind x := by
  cases x with
  | token t => rfl
  | node ty ps => simp only [Item.unclose]; split <;> rfl

theorem close_clean {x : Item} (h : ItemClean x) : ItemClean x.close := by
  cases h with
  | side h => exact .side h
  | @default ps h =>
    simp only [Item.close]
    split
    · exact .default h
    · exact .default fun p hp => by
        rcases List.mem_append.mp hp with hp | hp
        · exact h p hp
        · rw [List.mem_singleton.mp hp]; exact .sep
  | @«section» l ps hl h =>
    simp only [Item.close]
    split
    · exact .section hl h
    · exact .section (ps := ps ++ [sepPart]) hl fun p hp => by
        rcases List.mem_append.mp hp with hp | hp
        · exact h p hp
        · rw [List.mem_singleton.mp hp]; exact .sep

theorem unclose_clean {x : Item} (h : ItemClean x) : ItemClean x.unclose := by
  cases h with
  | side h => exact .side h
  | @default ps h =>
    simp only [Item.unclose]
    split
    · exact .default fun p hp => h p ((List.dropLast_sublist _).mem hp)
    · exact .default h
  | @«section» l ps hl h =>
    simp only [Item.unclose]
    split
    · rename_i hs
      cases ps with
      | nil => simp [Part.isSep] at hs
      | cons p ps => exact .section hl fun q hq => h q ((List.dropLast_sublist _).mem hq)
    · exact .section hl h

theorem clean_mapLast {f : Item → Item} (hf : ∀ x, itemKind (f x) = itemKind x) (hc : ∀ x, ItemClean x → ItemClean (f x)) {d : Doc} (h : Clean d) :
    Clean (mapLast f d) := by
  refine ⟨fun x hx => ?_, by rw [mapLast_map hf]; exact h.first⟩
  rcases mapLast_mem hx with hx | ⟨y, hy, rfl⟩
  · exact h.items x hx
  · exact hc y (h.items y hy)

theorem clean_append {a b : Doc} (ha : Clean a) (hb : Clean b) (hab : ∀ x ∈ a, ∀ y ∈ b, itemKind y = 1 → itemKind x = 0) : Clean (a ++ b) := by
  refine ⟨fun x hx => ?_, ?_⟩
  · rcases List.mem_append.mp hx with hx | hx
    · exact ha.items x hx
    · exact hb.items x hx
  · rw [List.map_append, List.pairwise_append]
    refine ⟨ha.first, hb.first, ?_⟩
    intro j hj k hk
    obtain ⟨x, hx, rfl⟩ := List.mem_map.mp hj
    obtain ⟨y, hy, rfl⟩ := List.mem_map.mp hk
    exact hab x hx y hy

theorem clean_parts {a b : Doc} (h : Clean (a ++ b)) : Clean a ∧ Clean b ∧ ∀ x ∈ a, ∀ y ∈ b, itemKind y = 1 → itemKind x = 0 := by
  have := h.first
  rw [List.map_append, List.pairwise_append] at this
  exact ⟨⟨fun x hx => h.items x (by simp [hx]), this.1⟩, ⟨fun x hx => h.items x (by simp [hx]), this.2.1⟩,
    fun x hx y hy => this.2.2 _ (List.mem_map_of_mem hx) _ (List.mem_map_of_mem hy)⟩

theorem clean_one {it : Item} (h : ItemClean it) : Clean [it] := ⟨by simpa using h, by simp⟩

theorem token_kind {d : Doc} (h : d.all (!·.isNode)) : ∀ x ∈ d, itemKind x = 0 := by
  intro x hx
  have := List.all_eq_true.mp h x hx
  cases x with
  | token t => rfl
  | node ty ps => simp [Item.isNode] at this

/-- The first section goes before all others. -/
theorem clean_first {a b : Doc} {it : Item} {ps : List Part} (h : Clean (a ++ it :: b)) (hn : ¬ Doc.Has (a ++ it :: b) []) (ha : a.all (!·.isNode))
    (hps : ∀ p ∈ ps, PartClean p) : Clean (a ++ .node "def-section" ps :: it :: b) := by
  obtain ⟨h1, h2, -⟩ := clean_parts h
  have hb : ∀ x ∈ it :: b, itemKind x ≠ 1 := by
    intro x hx e
    refine hn ⟨x, by simp [List.mem_cons.mp hx], ?_⟩
    cases x with
    | token t => simp [itemKind] at e
    | node ty ps =>
      have : ty = "def-section" := by
        by_contra hty
        simp [itemKind, hty] at e
      simp [Item.name, this]
  refine clean_append h1 (clean_append (a := [_]) (clean_one (.default hps)) h2 fun x _ y hy e => absurd e (hb y hy)) fun x hx _ _ _ => token_kind ha x hx

theorem clean_last {d : Doc} {s : Bytes} {ps : List Part} (h : Clean d) (hs : Name [46, 45] s) (hps : ∀ p ∈ ps, PartClean p) :
    Clean (mapLast Item.close d ++ [.node "section" (headerPart s :: ps)]) :=
  clean_append (clean_mapLast close_kind (fun _ => close_clean) h) (clean_one (.section (headerPart_clean hs) hps)) fun x _ y hy e => by
    rw [List.mem_singleton.mp hy] at e
    simp [itemKind] at e

/-- Edits keep documents clean. -/
theorem does_clean {trim : Bytes → Bytes} {x : Edit} {d d' : Doc} (h : x.Does trim d d') (hx : EditOk x) (hd : Clean d) : Clean d' := by
  cases x with
  | set s e v =>
    obtain ⟨hs, he, hv⟩ := hx
    have hp := entryPart_clean he hv
    cases h with
    | keep => exact hd
    | change a b ty p q l l' _ _ ha =>
      refine clean_replace hd (fun hi => ?_) rfl
      have hl : EntryToks l := by
        rcases item_part hi (.node "entry" l) (by simp) with h | ⟨l', h⟩
        · generalize hP : Part.node "entry" l = P at h
          cases h with
          | side => cases hP
          | sep => simp [sepPart] at hP
          | entry h => cases hP; exact h
        · simp at h
      exact item_parts (x := [.node "entry" l]) (x' := [.node "entry" l']) hi (by simpa using PartClean.entry (assigns_clean ha hl hv)) (by simp)
    | add a b ty p q _ _ hq _ =>
      refine clean_replace hd (fun hi => ?_) rfl
      refine item_parts (x := []) (x' := [entryPart e v]) hi (by simpa using hp) fun l r e => ?_
      have := List.all_eq_true.mp hq (.node "header" l) (by rw [List.nil_append] at e; rw [e]; simp)
      simp [Part.isSolid] at this
    | named _ _ hne => exact clean_last hd (hs.resolve_left hne) (by simpa using hp)
    | default _ _ _ ha => exact clean_append hd (clean_one (.default (by simpa using hp))) fun x hx _ _ _ => token_kind ha x hx
    | first a b it hn e ha _ =>
      subst e
      exact clean_first hd hn ha fun p h => by
        simp only [List.mem_cons, List.not_mem_nil, or_false] at h
        rcases h with rfl | rfl
        · exact hp
        · exact .sep
  | remove s e =>
    cases h with
    | keep => exact hd
    | drop a b ty p q x _ hk =>
      refine clean_replace hd (fun hi => ?_) rfl
      refine item_parts (x := [x]) (x' := []) hi (by simp) fun l r e => ?_
      simp only [List.singleton_append, List.cons.injEq] at e
      rw [e.1] at hk
      simp [Part.key] at hk
  | removeSection s =>
    cases h with
    | keep => exact hd
    | drop a b it _ _ =>
      obtain ⟨h1, h2, h3⟩ := clean_parts hd
      refine clean_append (clean_mapLast unclose_kind (fun _ => unclose_clean) h1) (clean_tail h2) fun x hx y hy e => ?_
      rcases mapLast_mem hx with hx | ⟨z, hz, rfl⟩
      · exact h3 x hx y (by simp [hy]) e
      · rw [unclose_kind]
        exact h3 z hz y (by simp [hy]) e
  | addSection s =>
    cases h with
    | keep => exact hd
    | add hn ho =>
      cases ho with
      | named _ hne => exact clean_last hd (Or.resolve_left hx hne) (by simp)
      | default _ e ha => exact clean_append hd (clean_one (.default (by simp))) fun x hx _ _ _ => token_kind ha x hx
      | first a b it e ha _ =>
        subst e
        exact clean_first hd hn ha (by simpa using PartClean.sep)

theorem edits_clean {trim : Bytes → Bytes} {es : List Edit} {d d' : Doc} (h : Edits trim d es d') (hx : ∀ x ∈ es, EditOk x) (hd : Clean d) : Clean d' := by
  induction h with
  | nil => exact hd
  | cons _ h1 _ ih => exact ih (fun x hx' => hx x (by simp [hx'])) (does_clean h1 (hx _ (by simp)) hd)

end Verif.Proof.Conf
