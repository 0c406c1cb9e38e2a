/-
The configuration editor: how tokens of lines are read.
-/
import Verif.Proof.ConfParse
import Verif.Proof.OneTokenTree
import Verif.Spec.ConfText

namespace Verif.Proof.Conf

open Verif Verif.Model Verif.Model.ConfEdit Verif.Spec Verif.Spec.Conf Verif.Props Verif.Props.Conf Verif.Proof

/-- Signs are both literals and tokens of their type. -/
def alsoSign (k k' : Int) : Prop := (k = 7 ∨ k = 8 ∨ k = 9) ∧ k' = 5

/-- In which states keys come. -/
def comesIn (s : Nat) (k : Int) : Prop :=
  (k = 6 → s = 8) ∧ (k = 3 → s = 12) ∧ (k = 4 ∨ k = 5 ∨ k = 7 ∨ k = 8 ∨ k = 9 → s ≠ 8 ∧ s ≠ 12)

/-- Runs of the machines of the grammar. -/
abbrev Goes (fr : List Proof.Part) (ks : List (Token × Nat)) (T : List Spec.Item) : Prop :=
  GreedyWay grammar (tableOf grammar) alsoSign (fun s ks => comesIn s (nextKey ks)) fr ks T

/-- Tokens of a line with their keys. -/
inductive LineKeys : Line → List (Token × Nat) → Prop
  | blank {t : Token} : t.typeName = "nl" → LineKeys .blank [(t, 2)]
  | comment : LineKeys .comment []
  | entry {tn te tv tl : Token} {n v : Bytes} : tokOf tn = ⟨"name", n⟩ → te.typeName = "op" → tokOf tv = ⟨"value", v⟩ → tl.typeName = "nl" → v ≠ [] →
      LineKeys (.entry n v) [(tn, 4), (te, 7), (tv, 6), (tl, 2)]
  | noted {tn te tv : Token} {n v : Bytes} : tokOf tn = ⟨"name", n⟩ → te.typeName = "op" → tokOf tv = ⟨"value", v⟩ → v ≠ [] →
      LineKeys (.entry n v) [(tn, 4), (te, 7), (tv, 6)]
  | unset {tn te tl : Token} {n : Bytes} : tokOf tn = ⟨"name", n⟩ → te.typeName = "op" → tl.typeName = "nl" → LineKeys (.entry n []) [(tn, 4), (te, 7), (tl, 2)]
  | header {ta tn te tl : Token} {n : Bytes} : ta.typeName = "op" → tokOf tn = ⟨"sec-name", n⟩ → te.typeName = "op" → tl.typeName = "nl" →
      LineKeys (.header n) [(ta, 8), (tn, 3), (te, 9), (tl, 2)]

/-- Tokens of lines with their keys. -/
inductive FileKeys : List Line → List (Token × Nat) → Prop
  | nil : FileKeys [] []
  | cons {x : Line} {l : List Line} {a b : List (Token × Nat)} : LineKeys x a → FileKeys l b → FileKeys (x :: l) (a ++ b)

/-- Tokens of a line with their keys, no comment comes after a value. -/
inductive PlainKeys : Line → List (Token × Nat) → Prop
  | blank {t : Token} : tokOf t = ⟨"nl", [10]⟩ → PlainKeys .blank [(t, 2)]
  | comment : PlainKeys .comment []
  | entry {tn te tv tl : Token} {n v : Bytes} : tokOf tn = ⟨"name", n⟩ → tokOf te = ⟨"op", [61]⟩ → tokOf tv = ⟨"value", v⟩ → tokOf tl = ⟨"nl", [10]⟩ →
      PlainKeys (.entry n v) [(tn, 4), (te, 7), (tv, 6), (tl, 2)]
  | unset {tn te tl : Token} {n : Bytes} : tokOf tn = ⟨"name", n⟩ → tokOf te = ⟨"op", [61]⟩ → tokOf tl = ⟨"nl", [10]⟩ →
      PlainKeys (.entry n []) [(tn, 4), (te, 7), (tl, 2)]
  | header {ta tn te tl : Token} {n : Bytes} : tokOf ta = ⟨"op", [91]⟩ → tokOf tn = ⟨"sec-name", n⟩ → tokOf te = ⟨"op", [93]⟩ → tokOf tl = ⟨"nl", [10]⟩ →
      PlainKeys (.header n) [(ta, 8), (tn, 3), (te, 9), (tl, 2)]

/-- Tokens of lines with their keys, no comments come after values. -/
inductive PlainFile : List Line → List (Token × Nat) → Prop
  | nil : PlainFile [] []
  | cons {x : Line} {l : List Line} {a b : List (Token × Nat)} : PlainKeys x a → PlainFile l b → PlainFile (x :: l) (a ++ b)

/-- Entries in parts of a section. -/
def entriesIn (trim : Bytes → Bytes) (s : Bytes) (its : List Spec.Item) : List (Bytes × Bytes × Bytes) :=
  (its.map (partOf names)).filterMap fun p => p.key.map fun e => (s, e, p.value trim)

theorem entriesIn_append (trim : Bytes → Bytes) (s : Bytes) (a b : List Spec.Item) : entriesIn trim s (a ++ b) = entriesIn trim s a ++ entriesIn trim s b := by
  simp [entriesIn]

theorem item_entries {trim : Bytes → Bytes} {i : Nat} {st : Option Token} {its : List Spec.Item} {s : Bytes}
    (h : (itemOf names (.node i st its)).name = some s) : Item.entries trim (itemOf names (.node i st its)) = entriesIn trim s its := by
  unfold itemOf at h ⊢
  unfold Item.entries entriesIn
  dsimp only
  congr 1
  funext p
  rw [h]
  cases p.key <;> rfl

/-- What the document states. -/
structure States (trim : Bytes → Bytes) (T : List Spec.Item) (es : List (Bytes × Bytes × Bytes)) (ss : List Bytes) : Prop where
  entries : (docOf names T).entries trim = es
  sections : (docOf names T).filterMap Item.name = ss

theorem States.node {trim : Bytes → Bytes} {T : List Spec.Item} {es : List (Bytes × Bytes × Bytes)} {ss : List Bytes} (h : States trim T es ss)
    {i : Nat} {st : Option Token} {its : List Spec.Item} {s : Bytes} (hn : (itemOf names (.node i st its)).name = some s) :
    States trim (T ++ [.node i st its]) (es ++ entriesIn trim s its) (ss ++ [s]) := by
  refine ⟨?_, ?_⟩
  · rw [docOf, List.map_append, Doc.entries, List.flatMap_append]
    have := h.entries
    rw [Doc.entries, docOf] at this
    rw [this]
    simp only [List.map_cons, List.map_nil, List.flatMap_cons, List.flatMap_nil, List.append_nil]
    rw [item_entries hn]
  · rw [docOf, List.map_append, List.filterMap_append]
    have := h.sections
    rw [docOf] at this
    rw [this]
    simp [hn]

/-! Steps -/

section Steps

variable {fr : List Proof.Part} {ks : List (Token × Nat)} {T : List Spec.Item}

theorem mem_table {s : Nat} {k : Int} {r : Rule} (h : (tableOf grammar s k).contains r = true) : r ∈ tableOf grammar s k := by simpa using h

theorem read_step {s k s' i : Nat} {st : Option Token} {its : List Spec.Item} {t : Token} (hr : (tableOf grammar s k).contains ⟨k, s', -1⟩ = true)
    (hc : comesIn s k) (h : Goes (⟨(s' : Int), i, st, its ++ [.tok t]⟩ :: fr) ks T) : Goes (⟨(s : Int), i, st, its⟩ :: fr) ((t, k) :: ks) T :=
  .read (r := ⟨k, s', -1⟩) (mem_table hr) rfl hc h

theorem last_step {s k i : Nat} {st st' : Option Token} {its its' : List Spec.Item} {s' : Int} {i' : Nat} {t : Token}
    (hr : (tableOf grammar s k).contains ⟨k, -1, -1⟩ = true) (hc : comesIn s k)
    (h : Goes (⟨s', i', st', its' ++ [.node i st (its ++ [.tok t])]⟩ :: fr) ks T) : Goes (⟨(s : Int), i, st, its⟩ :: ⟨s', i', st', its'⟩ :: fr) ((t, k) :: ks) T :=
  .read (r := ⟨k, -1, -1⟩) (mem_table hr) rfl hc (.pop h)

theorem skip_step {s i : Nat} {st st' : Option Token} {its its' : List Spec.Item} {s' : Int} {i' : Nat}
    (hr : (tableOf grammar s anyToken).contains ⟨anyToken, -1, -1⟩ = true) (hc : comesIn s (nextKey ks))
    (hk : ∀ t k ks', ks = (t, k) :: ks' → tableOf grammar s (k : Nat) = [] ∧ ∀ k', alsoSign k k' → tableOf grammar s k' = [])
    (h : Goes (⟨s', i', st', its' ++ [.node i st its]⟩ :: fr) ks T) : Goes (⟨(s : Int), i, st, its⟩ :: ⟨s', i', st', its'⟩ :: fr) ks T :=
  .skip (r := ⟨anyToken, -1, -1⟩) (mem_table hr) rfl hc hk (.pop h)

theorem push_step {s k s' n f i : Nat} {st : Option Token} {its : List Spec.Item} {t : Token} (hr : (tableOf grammar s k).contains ⟨k, s', n⟩ = true)
    (hf : grammar.firsts[n]? = some f) (hc : comesIn s k)
    (h : Goes (⟨(f : Int), n, some t, []⟩ :: ⟨(s' : Int), i, st, its⟩ :: fr) ((t, k) :: ks) T) : Goes (⟨(s : Int), i, st, its⟩ :: fr) ((t, k) :: ks) T :=
  .push (r := ⟨k, s', n⟩) (mem_table hr) rfl hf hc h

theorem not_sign : ∀ s < 15, tableOf grammar s 5 = [] := by decide +kernel

/-- A line in a section: the state before it and the state after it. -/
def inSection (s s' : Nat) : Prop := s = 2 ∧ s' = 3 ∨ s = 3 ∧ s' = 3 ∨ s = 5 ∧ s' = 5

theorem sep_way {s s' i : Nat} (hs : inSection s s') {st : Option Token} {its : List Spec.Item} {t : Token}
    (h : Goes (⟨(s' : Int), i, st, its ++ [.node 4 (some t) [.tok t]]⟩ :: fr) ks T) : Goes (⟨(s : Int), i, st, its⟩ :: fr) ((t, 2) :: ks) T := by
  have h2 : Goes (⟨((10 : Nat) : Int), 4, some t, []⟩ :: ⟨(s' : Int), i, st, its⟩ :: fr) ((t, 2) :: ks) T :=
    last_step (by decide +kernel) (by simp [comesIn]) h
  rcases hs with ⟨rfl, rfl⟩ | ⟨rfl, rfl⟩ | ⟨rfl, rfl⟩
  all_goals exact push_step (n := 4) (f := 10) (by decide +kernel) (by decide) (by simp [comesIn]) h2

theorem entry_way {s s' i : Nat} (hs : inSection s s') {st : Option Token} {its : List Spec.Item} {tn te : Token}
    (h : Goes (⟨((8 : Nat) : Int), 3, some tn, [.tok tn, .tok te]⟩ :: ⟨(s' : Int), i, st, its⟩ :: fr) ks T) :
    Goes (⟨(s : Int), i, st, its⟩ :: fr) ((tn, 4) :: (te, 7) :: ks) T := by
  have h2 : Goes (⟨((6 : Nat) : Int), 3, some tn, []⟩ :: ⟨(s' : Int), i, st, its⟩ :: fr) ((tn, 4) :: (te, 7) :: ks) T :=
    read_step (s' := 7) (by decide +kernel) (by simp [comesIn]) (read_step (s' := 8) (by decide +kernel) (by simp [comesIn]) h)
  rcases hs with ⟨rfl, rfl⟩ | ⟨rfl, rfl⟩ | ⟨rfl, rfl⟩
  all_goals exact push_step (n := 3) (f := 6) (by decide +kernel) (by decide) (by simp [comesIn]) h2

theorem header_way {s : Nat} (hs : s = 0 ∨ s = 1) {st : Option Token} {its : List Spec.Item} {ta tn te tl : Token}
    (h : Goes [⟨((5 : Nat) : Int), 2, some ta, [.node 5 (some ta) [.tok ta, .tok tn, .tok te, .tok tl]]⟩, ⟨((1 : Nat) : Int), 0, st, its⟩] ks T) :
    Goes [⟨(s : Int), 0, st, its⟩] ((ta, 8) :: (tn, 3) :: (te, 9) :: (tl, 2) :: ks) T := by
  have h2 : Goes [⟨((4 : Nat) : Int), 2, some ta, []⟩, ⟨((1 : Nat) : Int), 0, st, its⟩] ((ta, 8) :: (tn, 3) :: (te, 9) :: (tl, 2) :: ks) T := by
    refine push_step (s' := 5) (n := 5) (f := 11) (by decide +kernel) (by decide) (by simp [comesIn]) ?_
    refine read_step (s' := 12) (by decide +kernel) (by simp [comesIn]) ?_
    refine read_step (s' := 13) (by decide +kernel) (by simp [comesIn]) ?_
    refine read_step (s' := 14) (by decide +kernel) (by simp [comesIn]) ?_
    exact last_step (by decide +kernel) (by simp [comesIn]) h
  rcases hs with rfl | rfl
  all_goals exact push_step (n := 2) (f := 4) (by decide +kernel) (by decide) (by simp [comesIn]) h2

end Steps

/-! Lines -/

theorem entry_states {trim : Bytes → Bytes} {s n : Bytes} {its : List Spec.Item} {st : Option Token} {tn : Token} {rest : List Token}
    (hn : tokOf tn = ⟨"name", n⟩) :
    entriesIn trim s (its ++ [.node 3 st (.tok tn :: rest.map .tok)]) =
      entriesIn trim s its ++ [(s, n, ((firstText "value" (rest.map tokOf)).map trim).getD [])] := by
  have hl : ∀ l : List Token, leavesOf (l.map Spec.Item.tok) = l := by
    intro l
    induction l with
    | nil => rfl
    | cons t l ih => simp [leavesOf, Spec.Item.leaves, ih]
  have hn1 : (tokOf tn).type = "name" := by rw [hn]
  have h3 : names 3 = "entry" := rfl
  rw [entriesIn_append]
  congr 1
  unfold entriesIn
  simp only [List.map_cons, List.map_nil, partOf, leavesOf, Spec.Item.leaves, hl, List.cons_append, List.nil_append]
  simp [Part.key, h3, firstText, hn, Part.value, Part.toks, hn1]
  rfl

theorem sep_states {trim : Bytes → Bytes} {s : Bytes} {its : List Spec.Item} {st : Option Token} {l : List Spec.Item} :
    entriesIn trim s (its ++ [.node 4 st l]) = entriesIn trim s its := by
  rw [entriesIn_append]
  have h : names 4 = "sep" := rfl
  simp [entriesIn, partOf, Part.key, h]

theorem header_states {trim : Bytes → Bytes} {s : Bytes} {st : Option Token} {l : List Spec.Item} : entriesIn trim s [.node 5 st l] = [] := by
  have h : names 5 = "header" := rfl
  simp [entriesIn, partOf, Part.key, h]

theorem fileKeys_next {lines : List Line} {ks : List (Token × Nat)} (h : FileKeys lines ks) {t : Token} {k : Nat} {ks' : List (Token × Nat)}
    (e : ks = (t, k) :: ks') : k = 2 ∨ k = 4 ∨ k = 8 := by
  induction h with
  | nil => cases e
  | cons hx _ ih =>
    cases hx with
    | comment => exact ih e
    | blank | entry | noted | unset | header => cases e; simp

/-- After a value with a comment. -/
theorem noted_way {ks : List (Token × Nat)} {st st' : Option Token} {its its' : List Spec.Item} {s' : Int} {i' : Nat} {fr : List Proof.Part} {T : List Spec.Item}
    (hk : ∀ t k ks', ks = (t, k) :: ks' → k = 4 ∨ k = 8)
    (h : Goes (⟨s', i', st', its' ++ [.node 3 st its]⟩ :: fr) ks T) : Goes (⟨((9 : Nat) : Int), 3, st, its⟩ :: ⟨s', i', st', its'⟩ :: fr) ks T := by
  refine skip_step (by decide +kernel) ?_ ?_ h
  · cases ks with
    | nil => simp [comesIn, nextKey, eoiTokenType]
    | cons x ks => rcases hk x.1 x.2 ks rfl with e | e <;> simp [comesIn, nextKey, e]
  · intro t k ks' e
    refine ⟨?_, fun k' h => ?_⟩
    · rcases hk t k ks' e with rfl | rfl <;> decide +kernel
    · rw [h.2]; exact not_sign 9 (by decide)

/-- The end of a section. -/
theorem end_way {s i : Nat} (hs : s = 3 ∨ s = 5) {ks : List (Token × Nat)} {st st' : Option Token} {its its' : List Spec.Item} {s' : Int} {i' : Nat}
    {fr : List Proof.Part} {T : List Spec.Item} (hk : ∀ t k ks', ks = (t, k) :: ks' → k = 8)
    (h : Goes (⟨s', i', st', its' ++ [.node i st its]⟩ :: fr) ks T) : Goes (⟨(s : Int), i, st, its⟩ :: ⟨s', i', st', its'⟩ :: fr) ks T := by
  have h15 : s < 15 := by omega
  refine skip_step (by rcases hs with rfl | rfl <;> decide +kernel) ?_ ?_ h
  · cases ks with
    | nil => simp [comesIn, nextKey, eoiTokenType]
    | cons x ks => rcases hs with rfl | rfl <;> simp [comesIn, nextKey, hk x.1 x.2 ks rfl]
  · intro t k ks' e
    refine ⟨?_, fun k' h => ?_⟩
    · obtain rfl := hk t k ks' e
      rcases hs with rfl | rfl <;> decide +kernel
    · rw [h.2]; exact not_sign s h15

theorem root_end {s : Nat} (hs : s = 0 ∨ s = 1) {st : Option Token} {its : List Spec.Item} : Goes [⟨(s : Int), 0, st, its⟩] [] its := by
  refine .skip (r := ⟨anyToken, -1, -1⟩) (mem_table ?_) rfl (by simp [comesIn, nextKey, eoiTokenType]) (by simp) .done
  rcases hs with rfl | rfl <;> decide +kernel

variable {trim : Bytes → Bytes}

/-- Lines in a section; the second part is about a value with a comment before them. -/
theorem lines_way {lines : List Line} {ks : List (Token × Nat)} (h : FileKeys lines ks) {s i : Nat} (hs : s = 3 ∨ s = 5) {st st0 : Option Token}
    {its its0 : List Spec.Item} {nm : Bytes} (hname : ∀ x, (itemOf names (.node i st (its ++ x))).name = some nm)
    {es : List (Bytes × Bytes × Bytes)} {ss : List Bytes} (h0 : States trim its0 es ss) :
    (∃ T, Goes [⟨(s : Int), i, st, its⟩, ⟨((1 : Nat) : Int), 0, st0, its0⟩] ks T ∧
      States trim T (es ++ entriesIn trim nm its ++ entriesOf trim nm lines) (ss ++ nm :: headersOf lines)) ∧
    ∀ (tn te tv : Token) (n v : Bytes), tokOf tn = ⟨"name", n⟩ → te.typeName = "op" → tokOf tv = ⟨"value", v⟩ →
      ∃ T, Goes [⟨((9 : Nat) : Int), 3, some tn, [.tok tn, .tok te, .tok tv]⟩, ⟨(s : Int), i, st, its⟩, ⟨((1 : Nat) : Int), 0, st0, its0⟩] ks T ∧
        States trim T (es ++ entriesIn trim nm its ++ (nm, n, trim v) :: entriesOf trim nm lines) (ss ++ nm :: headersOf lines) := by
  have hsec : inSection s s := by rcases hs with rfl | rfl <;> simp [inSection]
  have hval : ∀ {te tv : Token} {v : Bytes} {l : List Token}, te.typeName = "op" → tokOf tv = ⟨"value", v⟩ →
      firstText "value" ((te :: tv :: l).map tokOf) = some v := by
    intro te tv v l h1 h2
    have h3 : (tokOf te).type = "op" := h1
    have h4 : (tokOf tv).type = "value" := by rw [h2]
    simp [firstText, h3, h2]
  induction h generalizing s i st st0 its its0 nm es ss with
  | nil =>
    have key : ∀ its' : List Spec.Item, (∃ x, its' = its ++ x) → ∃ T, Goes [⟨(s : Int), i, st, its'⟩, ⟨((1 : Nat) : Int), 0, st0, its0⟩] [] T ∧
        States trim T (es ++ entriesIn trim nm its') (ss ++ [nm]) := by
      rintro _ ⟨x, rfl⟩
      exact ⟨_, end_way hs (by simp) (root_end (.inr rfl)), h0.node (hname x)⟩
    refine ⟨?_, ?_⟩
    · obtain ⟨T, h1, h2⟩ := key its ⟨[], by simp⟩
      exact ⟨T, h1, by simpa [entriesOf, headersOf] using h2⟩
    · intro tn te tv n v hn he hv
      obtain ⟨T, h1, h2⟩ := key (its ++ [.node 3 (some tn) ([tn, te, tv].map .tok)]) ⟨_, rfl⟩
      refine ⟨T, noted_way (by simp) h1, ?_⟩
      rw [show [tn, te, tv].map Spec.Item.tok = .tok tn :: [te, tv].map .tok from rfl, entry_states hn, hval he hv] at h2
      simpa [entriesOf, headersOf] using h2
  | @cons x l a b hx hl ih =>
    have hname' : ∀ y, ∀ x, (itemOf names (.node i st ((its ++ y) ++ x))).name = some nm := fun y x => by rw [List.append_assoc]; exact hname _
    -- what is done with a value and a comment before the line if the line does not begin with a line feed
    have hprev : (∀ t k ks', a ++ b = (t, k) :: ks' → k = 4 ∨ k = 8) →
        (∀ y, ∃ T, Goes [⟨(s : Int), i, st, its ++ y⟩, ⟨((1 : Nat) : Int), 0, st0, its0⟩] (a ++ b) T ∧
          States trim T (es ++ entriesIn trim nm (its ++ y) ++ entriesOf trim nm (x :: l)) (ss ++ nm :: headersOf (x :: l))) →
        ∀ (tn te tv : Token) (n v : Bytes), tokOf tn = ⟨"name", n⟩ → te.typeName = "op" → tokOf tv = ⟨"value", v⟩ →
          ∃ T, Goes [⟨((9 : Nat) : Int), 3, some tn, [.tok tn, .tok te, .tok tv]⟩, ⟨(s : Int), i, st, its⟩, ⟨((1 : Nat) : Int), 0, st0, its0⟩] (a ++ b) T ∧
            States trim T (es ++ entriesIn trim nm its ++ (nm, n, trim v) :: entriesOf trim nm (x :: l)) (ss ++ nm :: headersOf (x :: l)) := by
      intro hk hA tn te tv n v hn he hv
      obtain ⟨T, h1, h2⟩ := hA [.node 3 (some tn) ([tn, te, tv].map .tok)]
      refine ⟨T, noted_way hk h1, ?_⟩
      rw [show [tn, te, tv].map Spec.Item.tok = .tok tn :: [te, tv].map .tok from rfl, entry_states hn, hval he hv] at h2
      simpa using h2
    cases hx with
    | comment =>
      obtain ⟨h1, h2⟩ := ih hs hname h0 hsec
      refine ⟨by simpa [entriesOf, headersOf] using h1, by simpa [entriesOf, headersOf] using h2⟩
    | @blank t ht =>
      refine ⟨?_, fun tn te tv n v hn he hv => ?_⟩
      · obtain ⟨T, h1, h2⟩ := (ih hs (hname' [.node 4 (some t) [.tok t]]) h0 hsec).1
        refine ⟨T, sep_way hsec h1, ?_⟩
        rw [sep_states] at h2
        simpa [entriesOf, headersOf] using h2
      · obtain ⟨T, h1, h2⟩ := (ih hs (hname' [.node 3 (some tn) ([tn, te, tv, t].map .tok)]) h0 hsec).1
        refine ⟨T, last_step (by decide +kernel) (by simp [comesIn]) h1, ?_⟩
        rw [show [tn, te, tv, t].map Spec.Item.tok = .tok tn :: [te, tv, t].map .tok from rfl, entry_states hn, hval he hv] at h2
        simpa [entriesOf, headersOf] using h2
    | @entry tn te tv tl n v hn he hv ht hne =>
      have hA : ∀ y, ∃ T, Goes [⟨(s : Int), i, st, its ++ y⟩, ⟨((1 : Nat) : Int), 0, st0, its0⟩] ([(tn, 4), (te, 7), (tv, 6), (tl, 2)] ++ b) T ∧
          States trim T (es ++ entriesIn trim nm (its ++ y) ++ entriesOf trim nm (.entry n v :: l)) (ss ++ nm :: headersOf (.entry n v :: l)) := by
        intro y
        obtain ⟨T, h1, h2⟩ := (ih hs (hname' (y ++ [.node 3 (some tn) ([tn, te, tv, tl].map .tok)])) h0 hsec).1
        refine ⟨T, entry_way hsec (read_step (s' := 9) (by decide +kernel) (by simp [comesIn]) (last_step (by decide +kernel) (by simp [comesIn]) ?_)), ?_⟩
        · simpa using h1
        · rw [show [tn, te, tv, tl].map Spec.Item.tok = .tok tn :: [te, tv, tl].map .tok from rfl, ← List.append_assoc, entry_states hn, hval he hv] at h2
          simpa [entriesOf, headersOf, hne] using h2
      refine ⟨by simpa using hA [], hprev (by simp) hA⟩
    | @noted tn te tv n v hn he hv hne =>
      have hA : ∀ y, ∃ T, Goes [⟨(s : Int), i, st, its ++ y⟩, ⟨((1 : Nat) : Int), 0, st0, its0⟩] ([(tn, 4), (te, 7), (tv, 6)] ++ b) T ∧
          States trim T (es ++ entriesIn trim nm (its ++ y) ++ entriesOf trim nm (.entry n v :: l)) (ss ++ nm :: headersOf (.entry n v :: l)) := by
        intro y
        obtain ⟨T, h1, h2⟩ := (ih hs (hname' y) h0 hsec).2 tn te tv n v hn he hv
        refine ⟨T, entry_way hsec (read_step (s' := 9) (by decide +kernel) (by simp [comesIn]) h1), ?_⟩
        simpa [entriesOf, headersOf, hne] using h2
      refine ⟨by simpa using hA [], hprev (by simp) hA⟩
    | @unset tn te tl n hn he ht =>
      have hA : ∀ y, ∃ T, Goes [⟨(s : Int), i, st, its ++ y⟩, ⟨((1 : Nat) : Int), 0, st0, its0⟩] ([(tn, 4), (te, 7), (tl, 2)] ++ b) T ∧
          States trim T (es ++ entriesIn trim nm (its ++ y) ++ entriesOf trim nm (.entry n [] :: l)) (ss ++ nm :: headersOf (.entry n [] :: l)) := by
        intro y
        obtain ⟨T, h1, h2⟩ := (ih hs (hname' (y ++ [.node 3 (some tn) ([tn, te, tl].map .tok)])) h0 hsec).1
        refine ⟨T, entry_way hsec (last_step (by decide +kernel) (by simp [comesIn]) ?_), ?_⟩
        · simpa using h1
        · have hv : firstText "value" ([te, tl].map tokOf) = none := by
            have h3 : (tokOf te).type = "op" := he
            have h4 : (tokOf tl).type = "nl" := ht
            simp [firstText, h3, h4]
          rw [show [tn, te, tl].map Spec.Item.tok = .tok tn :: [te, tl].map .tok from rfl, ← List.append_assoc, entry_states hn, hv] at h2
          simpa [entriesOf, headersOf] using h2
      refine ⟨by simpa using hA [], hprev (by simp) hA⟩
    | @header ta tn te tl n ha hn he ht =>
      have hA : ∀ y, ∃ T, Goes [⟨(s : Int), i, st, its ++ y⟩, ⟨((1 : Nat) : Int), 0, st0, its0⟩] ([(ta, 8), (tn, 3), (te, 9), (tl, 2)] ++ b) T ∧
          States trim T (es ++ entriesIn trim nm (its ++ y) ++ entriesOf trim nm (.header n :: l)) (ss ++ nm :: headersOf (.header n :: l)) := by
        intro y
        have hn1 : (tokOf tn).type = "sec-name" := by rw [hn]
        have ha1 : (tokOf ta).type = "op" := ha
        have h5 : names 2 = "section" := rfl
        obtain ⟨T, h1, h2⟩ := (ih (s := 5) (i := 2) (st := some ta) (its := [.node 5 (some ta) [.tok ta, .tok tn, .tok te, .tok tl]]) (nm := n) (.inr rfl) (by
          intro x
          simp [itemOf, Item.name, h5, partOf, Part.toks, leavesOf, Spec.Item.leaves, firstText, ha1, hn]) (h0.node (hname y)) (st0 := st0) (by simp [inSection])).1
        refine ⟨T, end_way hs (by simp) (header_way (.inr rfl) h1), ?_⟩
        rw [header_states] at h2
        simpa [entriesOf, headersOf] using h2
      refine ⟨by simpa using hA [], hprev (by simp) hA⟩

/-- The whole file. -/
theorem file_way {lines : List Line} {ks : List (Token × Nat)} (h : FileKeys lines ks) (trim : Bytes → Bytes) (st0 : Option Token) :
    ∃ T, Goes [⟨((0 : Nat) : Int), 0, st0, []⟩] ks T ∧ States trim T (entriesOf trim [] lines) (sectionsOf lines) := by
  have hdef : ∀ st its x, (itemOf names (.node 1 st (its ++ x))).name = some [] := by
    intro st its x
    have h : names 1 = "def-section" := rfl
    simp [itemOf, Item.name, h]
  have h00 : States trim [] [] [] := ⟨rfl, rfl⟩
  have h01 : ∀ {k : Nat} {t : Token} {ks : List (Token × Nat)} {T : List Spec.Item}, k = 2 ∨ k = 4 →
      Goes [⟨((2 : Nat) : Int), 1, some t, []⟩, ⟨((1 : Nat) : Int), 0, st0, []⟩] ((t, k) :: ks) T → Goes [⟨((0 : Nat) : Int), 0, st0, []⟩] ((t, k) :: ks) T := by
    intro k t ks T hk h
    rcases hk with rfl | rfl
    all_goals exact push_step (n := 1) (f := 2) (by decide +kernel) (by decide) (by simp [comesIn]) h
  have hsec : inSection 2 3 := by simp [inSection]
  induction h with
  | nil => exact ⟨[], root_end (.inl rfl), h00⟩
  | @cons x l a b hx hl ih =>
    cases hx with
    | comment =>
      obtain ⟨T, h1, h2⟩ := ih
      exact ⟨T, h1, h2⟩
    | @blank t ht =>
      obtain ⟨T, h1, h2⟩ := (lines_way hl (s := 3) (i := 1) (st := some t) (its := [.node 4 (some t) [.tok t]]) (st0 := st0) (.inl rfl) (hdef _ _) h00).1
      refine ⟨T, h01 (.inl rfl) (sep_way hsec h1), ?_⟩
      rw [← List.nil_append [Spec.Item.node _ _ _], sep_states] at h2
      simpa [entriesOf, sectionsOf, hasDefault, headersOf, entriesIn] using h2
    | @entry tn te tv tl n v hn he hv ht hne =>
      obtain ⟨T, h1, h2⟩ := (lines_way hl (s := 3) (i := 1) (st := some tn) (its := [.node 3 (some tn) ([tn, te, tv, tl].map .tok)]) (st0 := st0) (.inl rfl)
        (hdef _ _) h00).1
      refine ⟨T, h01 (.inr rfl) (entry_way hsec (read_step (s' := 9) (by decide +kernel) (by simp [comesIn])
        (last_step (by decide +kernel) (by simp [comesIn]) h1))), ?_⟩
      have h3 : (tokOf te).type = "op" := he
      rw [show [tn, te, tv, tl].map Spec.Item.tok = .tok tn :: [te, tv, tl].map .tok from rfl, ← List.nil_append [Spec.Item.node _ _ _], entry_states hn] at h2
      simpa [entriesOf, sectionsOf, hasDefault, headersOf, entriesIn, firstText, h3, hv, hne] using h2
    | @noted tn te tv n v hn he hv hne =>
      obtain ⟨T, h1, h2⟩ := (lines_way hl (s := 3) (i := 1) (st := some tn) (its := []) (st0 := st0) (.inl rfl) (hdef _ _) h00).2 tn te tv n v hn he hv
      refine ⟨T, h01 (.inr rfl) (entry_way hsec (read_step (s' := 9) (by decide +kernel) (by simp [comesIn]) h1)), ?_⟩
      simpa [entriesOf, sectionsOf, hasDefault, headersOf, entriesIn, hne] using h2
    | @unset tn te tl n hn he ht =>
      obtain ⟨T, h1, h2⟩ := (lines_way hl (s := 3) (i := 1) (st := some tn) (its := [.node 3 (some tn) ([tn, te, tl].map .tok)]) (st0 := st0) (.inl rfl)
        (hdef _ _) h00).1
      refine ⟨T, h01 (.inr rfl) (entry_way hsec (last_step (by decide +kernel) (by simp [comesIn]) h1)), ?_⟩
      have h3 : (tokOf te).type = "op" := he
      have h4 : (tokOf tl).type = "nl" := ht
      rw [show [tn, te, tl].map Spec.Item.tok = .tok tn :: [te, tl].map .tok from rfl, ← List.nil_append [Spec.Item.node _ _ _], entry_states hn] at h2
      simpa [entriesOf, sectionsOf, hasDefault, headersOf, entriesIn, firstText, h3, h4] using h2
    | @header ta tn te tl n ha hn he ht =>
      have ha1 : (tokOf ta).type = "op" := ha
      have h5 : names 2 = "section" := rfl
      obtain ⟨T, h1, h2⟩ := (lines_way hl (s := 5) (i := 2) (st := some ta) (its := [.node 5 (some ta) [.tok ta, .tok tn, .tok te, .tok tl]]) (nm := n) (.inr rfl) (by
        intro x
        simp [itemOf, Item.name, h5, partOf, Part.toks, leavesOf, Spec.Item.leaves, firstText, ha1, hn]) h00 (st0 := st0)).1
      refine ⟨T, header_way (.inl rfl) h1, ?_⟩
      rw [header_states] at h2
      simpa [entriesOf, sectionsOf, hasDefault, headersOf, entriesIn] using h2

end Verif.Proof.Conf
