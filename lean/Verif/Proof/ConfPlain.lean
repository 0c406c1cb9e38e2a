/-
The configuration editor: documents of files without comments on lines with entries.
-/
import Verif.Proof.ConfClean
import Verif.Proof.ConfCut
import Verif.Proof.ConfStates

namespace Verif.Proof.Conf

open Verif Verif.Model Verif.Model.ConfEdit Verif.Spec Verif.Spec.Conf Verif.Props Verif.Props.Conf Verif.Proof
open Verif.Spec.Trees (Tree)

/-- Tokens of entries without side tokens. -/
inductive EntryShape : List Tok → Prop
  | unset (n : Bytes) : EntryShape [⟨"name", n⟩, ⟨"op", [61]⟩, nlTok]
  | full (n v : Bytes) : EntryShape [⟨"name", n⟩, ⟨"op", [61]⟩, ⟨"value", v⟩, nlTok]

/-- Tokens of headers without side tokens. -/
inductive HeaderShape : List Tok → Prop
  | mk (n : Bytes) : HeaderShape [⟨"op", [91]⟩, ⟨"sec-name", n⟩, ⟨"op", [93]⟩, nlTok]

/-- Parts without side tokens. -/
inductive PartShape : Spec.Conf.Part → Prop
  | sep : PartShape sepPart
  | entry {l : List Tok} : EntryShape l → PartShape (.node "entry" l)

/-- Items without side tokens. -/
inductive ItemShape : Spec.Conf.Item → Prop
  | default {ps : List Spec.Conf.Part} : (∀ p ∈ ps, PartShape p) → ItemShape (.node "def-section" ps)
  | section {l : List Tok} {ps : List Spec.Conf.Part} : HeaderShape l → (∀ p ∈ ps, PartShape p) → ItemShape (.node "section" (.node "header" l :: ps))

/-- Documents without side tokens. -/
structure DocShape (d : Doc) : Prop where
  items : ∀ it ∈ d, ItemShape it
  first : (d.map itemKind).Pairwise fun a b => b = 1 → a = 0

theorem shape_add {d : Doc} {it : Spec.Conf.Item} (h : DocShape d) (hi : ItemShape it) (hk : d = [] ∨ itemKind it ≠ 1) : DocShape (d ++ [it]) := by
  refine ⟨fun x hx => ?_, ?_⟩
  · rcases List.mem_append.mp hx with hx | hx
    · exact h.items x hx
    · rw [List.mem_singleton.mp hx]; exact hi
  · rw [List.map_append, List.pairwise_append]
    refine ⟨h.first, by simp, ?_⟩
    intro j hj k hk' e
    simp only [List.map_cons, List.map_nil, List.mem_singleton] at hk'
    rcases hk with rfl | hk
    · simp at hj
    · exact absurd (hk'.symm.trans e) hk

/-- Parts of unfinished sections. -/
def PartsShape (x : List Spec.Item) : Prop := ∀ y ∈ x, PartShape (partOf names y)

theorem leaves_toks (l : List Token) : leavesOf (l.map Spec.Item.tok) = l := by
  induction l with
  | nil => rfl
  | cons t l ih => simp [leavesOf, Spec.Item.leaves, ih]

theorem partsShape_one {y : Spec.Item} (h : PartShape (partOf names y)) : PartsShape [y] := by
  intro z hz
  rw [List.mem_singleton.mp hz]
  exact h

theorem partsShape_append {a b : List Spec.Item} (ha : PartsShape a) (hb : PartsShape b) : PartsShape (a ++ b) := by
  intro y hy
  rcases List.mem_append.mp hy with h | h
  · exact ha y h
  · exact hb y h

theorem sep_shape {st : Option Token} {t : Token} (h : tokOf t = ⟨"nl", [10]⟩) : PartShape (partOf names (.node 4 st [.tok t])) := by
  have : partOf names (.node 4 st [.tok t]) = sepPart := by
    have e : names 4 = "sep" := rfl
    simp [partOf, e, leavesOf, Spec.Item.leaves, h, sepPart]
  rw [this]
  exact .sep

theorem entry_shape {st : Option Token} {tn te tl : Token} {n : Bytes} {vs : List Token} (hn : tokOf tn = ⟨"name", n⟩) (he : tokOf te = ⟨"op", [61]⟩)
    (hv : vs = [] ∨ ∃ tv v, vs = [tv] ∧ tokOf tv = ⟨"value", v⟩) (hl : tokOf tl = ⟨"nl", [10]⟩) :
    PartShape (partOf names (.node 3 st ((tn :: te :: (vs ++ [tl])).map .tok))) := by
  have e : names 3 = "entry" := rfl
  rw [partOf, leaves_toks, e]
  refine .entry ?_
  rcases hv with rfl | ⟨tv, v, rfl, hv⟩
  · simp only [List.nil_append, List.map_cons, List.map_nil, hn, he, hl]
    exact .unset n
  · simp only [List.cons_append, List.nil_append, List.map_cons, List.map_nil, hn, he, hl, hv]
    exact .full n v

theorem header_shape {its0 x : List Spec.Item} {ta tn te tl : Token} {n : Bytes} (h0 : DocShape (docOf names its0)) (ha : tokOf ta = ⟨"op", [91]⟩)
    (hn : tokOf tn = ⟨"sec-name", n⟩) (he : tokOf te = ⟨"op", [93]⟩) (hl : tokOf tl = ⟨"nl", [10]⟩) (hx : PartsShape x) :
    DocShape (docOf names (its0 ++ [.node 2 (some ta) ([.node 5 (some ta) [.tok ta, .tok tn, .tok te, .tok tl]] ++ x)])) := by
  have e2 : names 2 = "section" := rfl
  have e5 : names 5 = "header" := rfl
  rw [docOf, List.map_append]
  have hi : itemOf names (.node 2 (some ta) ([.node 5 (some ta) [.tok ta, .tok tn, .tok te, .tok tl]] ++ x)) =
      .node "section" (.node "header" [⟨"op", [91]⟩, ⟨"sec-name", n⟩, ⟨"op", [93]⟩, nlTok] :: x.map (partOf names)) := by
    simp [itemOf, partOf, e2, e5, leavesOf, Spec.Item.leaves, ha, hn, he, hl, nlTok]
  rw [List.map_cons, List.map_nil, hi]
  refine shape_add h0 (.section (.mk n) ?_) (.inr (by simp [itemKind]))
  intro p hp
  obtain ⟨y, hy, rfl⟩ := List.mem_map.mp hp
  exact hx y hy

/-- Lines in a section. -/
theorem plain_lines {lines : List Line} {ks : List (Token × Nat)} (h : PlainFile lines ks) {s i : Nat} (hs : s = 3 ∨ s = 5) {st st0 : Option Token}
    {its its0 : List Spec.Item} (hsh : ∀ x, PartsShape x → DocShape (docOf names (its0 ++ [.node i st (its ++ x)]))) :
    ∃ T, Goes [⟨(s : Int), i, st, its⟩, ⟨((1 : Nat) : Int), 0, st0, its0⟩] ks T ∧ DocShape (docOf names T) := by
  have hsec : inSection s s := by rcases hs with rfl | rfl <;> simp [inSection]
  induction h generalizing s i st st0 its its0 with
  | nil =>
    refine ⟨_, end_way hs (by simp) (root_end (.inr rfl)), ?_⟩
    simpa using hsh [] (by simp [PartsShape])
  | @cons x l a b hx hl ih =>
    have hadd : ∀ {y}, PartShape (partOf names y) → ∀ x, PartsShape x → DocShape (docOf names (its0 ++ [.node i st ((its ++ [y]) ++ x)])) := by
      intro y hy x hx
      rw [List.append_assoc]
      exact hsh _ (partsShape_append (partsShape_one hy) hx)
    cases hx with
    | comment => exact ih hs hsh hsec
    | @blank t ht =>
      obtain ⟨T, h1, h2⟩ := ih hs (hadd (sep_shape (st := some t) ht)) hsec
      exact ⟨T, sep_way hsec h1, h2⟩
    | @entry tn te tv tl n v hn he hv ht =>
      obtain ⟨T, h1, h2⟩ := ih hs (hadd (entry_shape (st := some tn) hn he (.inr ⟨tv, v, rfl, hv⟩) ht)) hsec
      exact ⟨T, entry_way hsec (read_step (s' := 9) (by decide +kernel) (by simp [comesIn]) (last_step (by decide +kernel) (by simp [comesIn]) h1)), h2⟩
    | @unset tn te tl n hn he ht =>
      obtain ⟨T, h1, h2⟩ := ih hs (hadd (entry_shape (st := some tn) hn he (.inl rfl) ht)) hsec
      exact ⟨T, entry_way hsec (last_step (by decide +kernel) (by simp [comesIn]) h1), h2⟩
    | @header ta tn te tl n ha hn he ht =>
      have h0 : DocShape (docOf names (its0 ++ [.node i st its])) := by simpa using hsh [] (by simp [PartsShape])
      obtain ⟨T, h1, h2⟩ := ih (s := 5) (i := 2) (st := some ta) (its := [.node 5 (some ta) [.tok ta, .tok tn, .tok te, .tok tl]]) (st0 := st0)
        (its0 := its0 ++ [.node i st its]) (.inr rfl) (fun x hx => header_shape h0 ha hn he ht hx) (by simp [inSection])
      exact ⟨T, end_way hs (by simp) (header_way (.inr rfl) h1), h2⟩

/-- The whole file. -/
theorem plain_way {lines : List Line} {ks : List (Token × Nat)} (h : PlainFile lines ks) (st0 : Option Token) :
    ∃ T, Goes [⟨((0 : Nat) : Int), 0, st0, []⟩] ks T ∧ DocShape (docOf names T) := by
  have h00 : DocShape (docOf names []) := ⟨by simp [docOf], by simp [docOf]⟩
  have hdef : ∀ {y : Spec.Item} {st : Option Token}, PartShape (partOf names y) → ∀ x, PartsShape x → DocShape (docOf names ([] ++ [.node 1 st ([y] ++ x)])) := by
    intro y st hy x hx
    have e1 : names 1 = "def-section" := rfl
    rw [docOf, List.map_append, List.map_cons, List.map_nil, itemOf, e1]
    refine shape_add h00 (.default ?_) (.inl rfl)
    intro p hp
    obtain ⟨z, hz, rfl⟩ := List.mem_map.mp hp
    exact partsShape_append (partsShape_one hy) hx z hz
  have h01 : ∀ {k : Nat} {t : Token} {ks : List (Token × Nat)} {T : List Spec.Item}, k = 2 ∨ k = 4 →
      Goes [⟨((2 : Nat) : Int), 1, some t, []⟩, ⟨((1 : Nat) : Int), 0, st0, []⟩] ((t, k) :: ks) T → Goes [⟨((0 : Nat) : Int), 0, st0, []⟩] ((t, k) :: ks) T := by
    intro k t ks T hk h
    rcases hk with rfl | rfl
    all_goals exact push_step (n := 1) (f := 2) (by decide +kernel) (by decide) (by simp [comesIn]) h
  have hsec : inSection 2 3 := by simp [inSection]
  induction h with
  | nil => exact ⟨[], root_end (.inl rfl), h00⟩
  | @cons x l a b hx hl ih =>
    cases hx with
    | comment => exact ih
    | @blank t ht =>
      obtain ⟨T, h1, h2⟩ := plain_lines hl (s := 3) (st0 := st0) (.inl rfl) (hdef (st := some t) (sep_shape (st := some t) ht))
      exact ⟨T, h01 (.inl rfl) (sep_way hsec h1), h2⟩
    | @entry tn te tv tl n v hn he hv ht =>
      obtain ⟨T, h1, h2⟩ := plain_lines hl (s := 3) (st0 := st0) (.inl rfl) (hdef (st := some tn) (entry_shape (st := some tn) hn he (.inr ⟨tv, v, rfl, hv⟩) ht))
      exact ⟨T, h01 (.inr rfl) (entry_way hsec (read_step (s' := 9) (by decide +kernel) (by simp [comesIn])
        (last_step (by decide +kernel) (by simp [comesIn]) h1))), h2⟩
    | @unset tn te tl n hn he ht =>
      obtain ⟨T, h1, h2⟩ := plain_lines hl (s := 3) (st0 := st0) (.inl rfl) (hdef (st := some tn) (entry_shape (st := some tn) hn he (.inl rfl) ht))
      exact ⟨T, h01 (.inr rfl) (entry_way hsec (last_step (by decide +kernel) (by simp [comesIn]) h1)), h2⟩
    | @header ta tn te tl n ha hn he ht =>
      obtain ⟨T, h1, h2⟩ := plain_lines hl (s := 5) (i := 2) (st := some ta) (its := [.node 5 (some ta) [.tok ta, .tok tn, .tok te, .tok tl]]) (st0 := st0)
        (its0 := []) (.inr rfl) (fun x hx => header_shape h00 ha hn he ht hx)
      exact ⟨T, header_way (.inl rfl) h1, h2⟩

/-! Tokens -/

/-- All tokens are in the items. -/
theorem way_leaves {g : Grammar} {m : Table} {also : Int → Int → Prop} {ok : Nat → List (Token × Nat) → Prop} {fr : List Proof.Part}
    {ks : List (Token × Nat)} {T : List Spec.Item} (h : GreedyWay g m also ok fr ks T) :
    leavesOf T = (fr.reverse.flatMap fun p => leavesOf p.items) ++ ks.map Prod.fst := by
  induction h with
  | done => simp
  | pop _ ih => simp [ih, leavesOf_append, leavesOf, Spec.Item.leaves]
  | skip _ _ _ _ _ ih => simpa using ih
  | read _ _ _ _ ih => simp [ih, leavesOf_append, leavesOf, Spec.Item.leaves]
  | push _ _ _ _ _ ih => simpa [leavesOf] using ih

/-- A token that is not passed. -/
def ordinary (t : Token) : Bool := decide (t.type ≠ eofTokenType) && !grammar.isSideType t.type

theorem keyed_ordinary {toks : List Token} {ks : List (Token × Nat)} {upper : List Nat → List Nat}
    (h : KeyedBy (Readable grammar upper (tableOf grammar) alsoSign) (Spec.Passed grammar) toks ks) : ks.map Prod.fst = toks.filter ordinary := by
  induction h with
  | nil => rfl
  | side h _ ih =>
    rw [List.filter_cons_of_neg, ih]
    rcases h with h | ⟨h, -⟩ <;> simp [ordinary, h]
  | @tok t k ts ks h _ ih =>
    rw [List.filter_cons_of_pos, List.map_cons, ih]
    have h1 := h.ordinary
    have h2 : t.type ≠ eofTokenType := by
      intro e
      have := h.meant
      rcases this with ⟨h0, -⟩ | ⟨h1, -⟩
      · rw [e] at h0; simp [eofTokenType] at h0
      · rw [e] at h1; simp only [eofTokenType] at h1; omega
    simp [ordinary, h1, h2]

theorem cuts_pos {re : List Nat → Option Matcher} {src : Src} {p : Nat} {toks : List Token} (h : Cuts re tokens [(src, p)] toks []) :
    ∀ t ∈ toks, t.type ≠ eofTokenType → (p : Int) ≤ t.pos.pos := by
  induction toks generalizing p with
  | nil => intro t ht; cases ht
  | cons t toks ih =>
    cases h with
    | tok h1 h2 h3 h4 h5 =>
      intro u hu hne
      rcases List.mem_cons.mp hu with rfl | hu
      · simp
      · have := ih h5 u hu hne
        push_cast at this
        omega
    | eof h =>
      intro u hu hne
      cases h
      rw [List.mem_singleton.mp hu] at hne
      exact absurd rfl hne

/-- If ordinary tokens are the same then all tokens are the same. -/
theorem cuts_same {re : List Nat → Option Matcher} {src : Src} {toks toks' : List Token} {p : Nat} (h : Cuts re tokens [(src, p)] toks [])
    (h' : Cuts re tokens [(src, p)] toks' []) (he : toks.filter ordinary = toks'.filter ordinary) : toks = toks' := by
  -- an ordinary token cannot be missed
  have missed : ∀ {p n i : Nat} {nm : String} {c : List Nat} {rest r : List Token}, 0 < n → Cuts re tokens [(src, p + n)] rest [] →
      rest.filter ordinary = ⟨(i : Int), nm, c, ⟨some src, (p : Nat)⟩⟩ :: r → False := by
    intro p n i nm c rest r hn hc e
    have hm : (⟨(i : Int), nm, c, ⟨some src, (p : Nat)⟩⟩ : Token) ∈ rest := List.mem_of_mem_filter (p := ordinary) (by rw [e]; simp)
    have := cuts_pos hc _ hm (by simp only [eofTokenType]; omega)
    push_cast at this
    omega
  have ord : ∀ {i : Nat} {nm : String} {c : List Nat} {q : SrcPos}, i < 7 → ordinary ⟨(i : Int), nm, c, q⟩ = decide (2 ≤ i) := by
    intro i nm c q hi
    have : (i : Int) ≠ eofTokenType := by simp only [eofTokenType]; omega
    simp only [ordinary, side_of hi]
    by_cases h2 : 2 ≤ i
    · simp [this, h2]
    · simp [h2]; omega
  induction toks generalizing p toks' with
  | nil => cases h
  | cons t toks ih =>
    cases h with
    | @tok _ _ k i n gt _ _ _ h1 h2 h3 h4 h5 =>
      cases h' with
      | @tok _ _ k' i' n' gt' _ _ toks2 h1' h2' h3' h4' h5' =>
        obtain ⟨hi, hk⟩ := in_group.mp h2.1
        obtain ⟨hi', hk'⟩ := in_group.mp h2'.1
        have same : k = k' → toks.filter ordinary = toks2.filter ordinary → i' = i ∧ n' = n ∧ gt = gt' ∧ toks = toks2 := fun e he' => by
          subst e
          obtain ⟨rfl, rfl⟩ := first_unique h2 h2'
          exact ⟨rfl, rfl, Option.some.inj (h4.symm.trans h4'), ih h5 h5' he'⟩
        by_cases ho : 2 ≤ i <;> by_cases ho' : 2 ≤ i'
        · rw [List.filter_cons_of_pos (by rw [ord hi]; simpa using ho), List.filter_cons_of_pos (by rw [ord hi']; simpa using ho')] at he
          simp only [List.cons.injEq, Token.mk.injEq] at he
          have : i = i' := by omega
          obtain ⟨rfl, rfl, rfl, rfl⟩ := same (by rw [hk, hk', this]) he.2
          rfl
        · rw [List.filter_cons_of_pos (by rw [ord hi]; simpa using ho), List.filter_cons_of_neg (by rw [ord hi']; simpa using ho')] at he
          exact (missed h3' h5' he.symm).elim
        · rw [List.filter_cons_of_neg (by rw [ord hi]; simpa using ho), List.filter_cons_of_pos (by rw [ord hi']; simpa using ho')] at he
          exact (missed h3 h5 he).elim
        · rw [List.filter_cons_of_neg (by rw [ord hi]; simpa using ho), List.filter_cons_of_neg (by rw [ord hi']; simpa using ho')] at he
          have g0 : ∀ i, ¬ 2 ≤ i → groupAt i = 0 := by
            intro i hi
            have : i = 0 ∨ i = 1 := by omega
            rcases this with rfl | rfl <;> rfl
          obtain ⟨rfl, rfl, rfl, rfl⟩ := same (by rw [hk, hk', g0 _ ho, g0 _ ho']) he
          rfl
      | eof h' => exact absurd h1 (Nat.lt_irrefl _)
    | eof h =>
      cases h' with
      | tok h1' => exact absurd h1' (Nat.lt_irrefl _)
      | eof h' => cases h; cases h'; rfl

/-! Trees -/

mutual
/-- The same tree is built of the same items, side tokens may be dropped. -/
theorem built_drop {look : Nat → Bool × String × Option Token} : ∀ {T : Tree} {x x' : Spec.Item}, Built look names T x → Built look names T x' →
    (dropSides grammar [x]).map (itemOf names) = (dropSides grammar [x']).map (itemOf names) ∧
      (dropSides grammar [x]).map (partOf names) = (dropSides grammar [x']).map (partOf names)
  | .node id kids, .tok t, .tok t', h, h' => by
    simp only [Built] at h h'
    have := h.1.symm.trans h'.1
    simp only [Prod.mk.injEq, Option.some.injEq] at this
    rw [this.2.2]
    exact ⟨rfl, rfl⟩
  | .node id kids, .tok t, .node i st its, h, h' => by
    simp only [Built] at h h'
    have := h.1.symm.trans h'.1
    simp at this
  | .node id kids, .node i st its, .tok t, h, h' => by
    simp only [Built] at h h'
    have := h.1.symm.trans h'.1
    simp at this
  | .node id kids, .node i st its, .node i' st' its', h, h' => by
    simp only [Built] at h h'
    have := h.1.symm.trans h'.1
    simp only [Prod.mk.injEq, true_and] at this
    obtain ⟨h1, -, -⟩ := builts_same h.2 h'.2
    obtain ⟨-, h2⟩ := builts_drop h.2 h'.2
    have h0 : dropSides grammar [] = [] := by rw [dropSides]
    rw [dropSides, h0, dropSides, h0]
    simp only [List.map_cons, List.map_nil, itemOf, partOf, this.1, h2, leaves_dropSides, h1, and_self]
theorem builts_drop {look : Nat → Bool × String × Option Token} : ∀ {ts : List Tree} {its its' : List Spec.Item}, builtAll look names ts its →
    builtAll look names ts its' → (dropSides grammar its).map (itemOf names) = (dropSides grammar its').map (itemOf names) ∧
      (dropSides grammar its).map (partOf names) = (dropSides grammar its').map (partOf names)
  | [], [], [], _, _ => ⟨rfl, rfl⟩
  | [], _ :: _, _, h, _ => by simp [builtAll] at h
  | [], [], _ :: _, _, h => by simp [builtAll] at h
  | _ :: _, [], _, h, _ => by simp [builtAll] at h
  | _ :: _, _ :: _, [], _, h => by simp [builtAll] at h
  | t :: ts, x :: its, x' :: its', h, h' => by
    simp only [builtAll] at h h'
    obtain ⟨h1, h2⟩ := built_drop h.1 h'.1
    obtain ⟨h4, h5⟩ := builts_drop h.2 h'.2
    have key : ∀ (x : Spec.Item) its, dropSides grammar (x :: its) = dropSides grammar [x] ++ dropSides grammar its := by
      intro x its
      cases x with
      | tok t => rw [dropSides, dropSides, dropSides]; split <;> simp
      | node i st js => rw [dropSides, dropSides, dropSides]; simp
    rw [key, key x']
    simp only [List.map_append, h1, h2, h4, h5, and_self]
end

/-! Clean documents -/

/-- What is known about tokens. -/
structure Fine (l : List Token) : Prop where
  flat : Flat l
  toks : ∀ t ∈ l, Named t ∧ TokOk t

theorem flat_part {a l b : List Token} (h : Flat (a ++ (l ++ b))) : Flat l := by
  intro x t y e ht hc
  subst e
  refine h (a ++ x) t (y ++ b) (by simp) ht ?_
  obtain ⟨p, c, q, rfl, h1, h2⟩ := hc
  exact ⟨p, c, q ++ b, by simp, h1, h2⟩

theorem Fine.part {a l b : List Token} (h : Fine (a ++ (l ++ b))) : Fine l :=
  ⟨flat_part h.flat, fun t ht => h.toks t (by simp [ht])⟩

theorem side_ok {t : Token} (hn : Named t) (hk : TokOk t) (hs : grammar.isSideType t.type = true) :
    SideTok (tokOf t) ∧ (t.typeName = "space" → SpaceTok (tokOf t)) ∧ (t.typeName = "space" ∨ t.typeName = "comment") := by
  refine ⟨?_, fun h => ⟨h, hk.space h⟩, named_side hn hs⟩
  rcases named_side hn hs with h | h
  · exact .inl ⟨h, hk.space h⟩
  · exact .inr ⟨h, hk.comment h, hk.noReturn⟩

/-- Not side tokens. -/
abbrev solids (l : List Token) : List Tok := (l.filter fun t => !grammar.isSideType t.type).map tokOf

theorem solids_split {l : List Token} {x : Tok} {xs : List Tok} (h : solids l = x :: xs) :
    ∃ u t l', l = u ++ t :: l' ∧ (∀ s ∈ u, grammar.isSideType s.type = true) ∧ tokOf t = x ∧ solids l' = xs := by
  induction l with
  | nil => simp [solids] at h
  | cons t l ih =>
    by_cases hs : grammar.isSideType t.type = true
    · rw [solids, List.filter_cons_of_neg (by simp [hs])] at h
      obtain ⟨u, t', l', rfl, h1, h2, h3⟩ := ih h
      exact ⟨t :: u, t', l', rfl, List.forall_mem_cons.mpr ⟨hs, h1⟩, h2, h3⟩
    · rw [solids, List.filter_cons_of_pos (by simp [hs]), List.map_cons, List.cons.injEq] at h
      exact ⟨[], t, l, rfl, by simp, h.1, h.2⟩

theorem solids_nil {l : List Token} (h : solids l = []) : ∀ s ∈ l, grammar.isSideType s.type = true := by
  intro s hs
  by_contra hn
  have : tokOf s ∈ solids l := List.mem_map_of_mem (List.mem_filter.mpr ⟨hs, by simp [hn]⟩)
  rw [h] at this
  simp at this

/-- There are only spaces between tokens of a line. -/
theorem gap {t : Token} {l : List Token} (h : Fine (t :: l)) (ht : t.typeName ∉ ["space", "comment", "nl"]) {x : Tok} {xs : List Tok} (hx : solids l = x :: xs) :
    ∃ u t' l', l = u ++ t' :: l' ∧ (∀ s ∈ u.map tokOf, SpaceTok s) ∧ tokOf t' = x ∧ solids l' = xs ∧ Fine (t' :: l') := by
  obtain ⟨u, t', l', rfl, h1, h2, h3⟩ := solids_split hx
  have hq := h.flat [] t _ rfl ht
  refine ⟨u, t', l', rfl, ?_, h2, h3, Fine.part (a := t :: u) (b := []) (by simpa using h)⟩
  have h4 : ∀ s ∈ u, Named s ∧ TokOk s := fun s hs => h.toks s (by simp [hs])
  clear h hx h3
  induction u with
  | nil => simp
  | cons s u ih =>
    obtain ⟨-, g1, g2⟩ := side_ok (h4 s (by simp)).1 (h4 s (by simp)).2 (h1 s (by simp))
    have hs : s.typeName = "space" := by
      rcases g2 with h | h
      · exact h
      · exact absurd ⟨[], s, u ++ t' :: l', rfl, by simp, h⟩ hq
    have ih := ih (fun s hs => h1 s (by simp [hs])) (fun ⟨p, c, q, e, e1, e2⟩ => hq ⟨s :: p, c, q, by simp [e], List.forall_mem_cons.mpr ⟨hs, e1⟩, e2⟩)
      fun s hs => h4 s (by simp [hs])
    exact List.forall_mem_cons.mpr ⟨g1 hs, ih⟩

theorem last_solid {l : List Token} (h : solids l = []) {a : List Token} (hb : Back grammar ((a ++ l).map Spec.Item.tok)) : l = [] := by
  rcases List.eq_nil_or_concat l with rfl | ⟨l', t, rfl⟩
  · rfl
  · have := solids_nil h t (by simp)
    rw [hb t ((a ++ l').map .tok) (by simp)] at this
    cases this

theorem front_solid {l : List Token} (hf : Front grammar (l.map Spec.Item.tok)) {x : Tok} {xs : List Tok} (hx : solids l = x :: xs) :
    ∃ t l', l = t :: l' ∧ tokOf t = x ∧ solids l' = xs := by
  obtain ⟨u, t, l', rfl, h1, h2, h3⟩ := solids_split hx
  cases u with
  | nil => exact ⟨t, l', rfl, h2, h3⟩
  | cons s u =>
    have := h1 s (by simp)
    rw [hf s ((u ++ t :: l').map .tok) (by simp)] at this
    cases this

theorem entry_toks {l : List Token} (h : Fine l) (hf : Front grammar (l.map .tok)) (hb : Back grammar (l.map .tok)) (hs : EntryShape (solids l)) :
    EntryToks (l.map tokOf) := by
  generalize hL : solids l = L at hs
  cases hs with
  | unset n =>
    obtain ⟨t1, l1, rfl, e1, hL⟩ := front_solid hf hL
    have k1 : t1.typeName = "name" := congrArg Tok.type e1
    obtain ⟨u, t2, l2, rfl, s1, e2, hL, h2⟩ := gap h (by rw [k1]; decide) hL
    have k2 : t2.typeName = "op" := congrArg Tok.type e2
    obtain ⟨w, t3, l3, rfl, s2, e3, hL, h3⟩ := gap h2 (by rw [k2]; decide) hL
    obtain rfl := last_solid (a := t1 :: (u ++ t2 :: (w ++ [t3]))) hL (by simpa using hb)
    have hn : Name [45] n := by
      have := (h.toks t1 (by simp)).2.name k1
      rwa [show t1.content = n from congrArg Tok.text e1] at this
    have := EntryToks.mk hn s1 (.none s2)
    simpa [e1, e2, e3] using this
  | full n v =>
    obtain ⟨t1, l1, rfl, e1, hL⟩ := front_solid hf hL
    have k1 : t1.typeName = "name" := congrArg Tok.type e1
    obtain ⟨u, t2, l2, rfl, s1, e2, hL, h2⟩ := gap h (by rw [k1]; decide) hL
    have k2 : t2.typeName = "op" := congrArg Tok.type e2
    obtain ⟨w, t3, l3, rfl, s2, e3, hL, h3⟩ := gap h2 (by rw [k2]; decide) hL
    have k3 : t3.typeName = "value" := congrArg Tok.type e3
    obtain ⟨y, t4, l4, rfl, s3, e4, hL, h4⟩ := gap h3 (by rw [k3]; decide) hL
    obtain rfl := last_solid (a := t1 :: (u ++ t2 :: (w ++ t3 :: (y ++ [t4])))) hL (by simpa using hb)
    have hn : Name [45] n := by
      have := (h.toks t1 (by simp)).2.name k1
      rwa [show t1.content = n from congrArg Tok.text e1] at this
    have hv : GoodValue v := by
      have h5 := (h3.toks t3 (by simp)).2
      have e : t3.content = v := congrArg Tok.text e3
      exact ⟨e ▸ h5.value k3, e ▸ h5.noReturn⟩
    have := EntryToks.mk hn s1 (.some s2 hv s3)
    simpa [e1, e2, e3, e4] using this

theorem header_toks {l : List Token} (h : Fine l) (hf : Front grammar (l.map .tok)) (hb : Back grammar (l.map .tok)) (hs : HeaderShape (solids l)) :
    HeaderToks (l.map tokOf) := by
  generalize hL : solids l = L at hs
  obtain ⟨n⟩ := hs
  obtain ⟨t1, l1, rfl, e1, hL⟩ := front_solid hf hL
  have k1 : t1.typeName = "op" := congrArg Tok.type e1
  obtain ⟨u, t2, l2, rfl, s1, e2, hL, h2⟩ := gap h (by rw [k1]; decide) hL
  have k2 : t2.typeName = "sec-name" := congrArg Tok.type e2
  obtain ⟨w, t3, l3, rfl, s2, e3, hL, h3⟩ := gap h2 (by rw [k2]; decide) hL
  have k3 : t3.typeName = "op" := congrArg Tok.type e3
  obtain ⟨y, t4, l4, rfl, s3, e4, hL, h4⟩ := gap h3 (by rw [k3]; decide) hL
  obtain rfl := last_solid (a := t1 :: (u ++ t2 :: (w ++ t3 :: (y ++ [t4])))) hL (by simpa using hb)
  have hn : Name [46, 45] n := by
    have := (h2.toks t2 (by simp)).2.secName k2
    rwa [show t2.content = n from congrArg Tok.text e2] at this
  have := HeaderToks.mk hn s1 s2 s3
  simpa [e1, e2, e3, e4] using this

theorem sep_toks {l : List Token} (hf : Front grammar (l.map .tok)) (hb : Back grammar (l.map .tok)) (hs : solids l = [nlTok]) : l.map tokOf = [nlTok] := by
  obtain ⟨t1, l1, rfl, e1, hL⟩ := front_solid hf hs
  obtain rfl := last_solid (a := [t1]) hL (by simpa using hb)
  simp [e1]

theorem mem_dropSides {items : List Spec.Item} : (∀ t, .tok t ∈ items → grammar.isSideType t.type = false → .tok t ∈ dropSides grammar items) ∧
    ∀ i st js, .node i st js ∈ items → .node i st (dropSides grammar js) ∈ dropSides grammar items := by
  induction items with
  | nil => simp
  | cons x items ih =>
    cases x with
    | tok t =>
      rw [dropSides]
      refine ⟨fun s hs hn => ?_, fun i st js hj => ?_⟩
      · rcases List.mem_cons.mp hs with e | hs
        · cases e; simp [hn]
        · have := ih.1 s hs hn
          split <;> simp [this]
      · have := ih.2 i st js (by simpa using hj)
        split <;> simp [this]
    | node i st js =>
      rw [dropSides]
      refine ⟨fun s hs hn => ?_, fun i' st' js' hj => ?_⟩
      · exact List.mem_cons_of_mem _ (ih.1 s (by simpa using hs) hn)
      · rcases List.mem_cons.mp hj with e | hj
        · cases e; simp
        · exact List.mem_cons_of_mem _ (ih.2 i' st' js' hj)

/-- A node of tokens. -/
structure LeafyPart (y : Spec.Item) : Prop where
  fine : Fine y.leaves
  fronts : Fronts grammar y
  tidy : Tidy grammar y
  leaf : ∀ j st js, y = .node j st js → ∃ ts : List Token, js = ts.map .tok

theorem part_clean {y : Spec.Item} (h : LeafyPart y) (hs : ∀ p ∈ (dropSides grammar [y]).map (partOf names), PartShape p) : PartClean (partOf names y) := by
  have h0 : dropSides grammar [] = [] := by rw [dropSides]
  cases y with
  | tok t =>
    have ht := h.fine.toks t (by simp [Spec.Item.leaves])
    by_cases hside : grammar.isSideType t.type = true
    · exact .side (side_ok ht.1 ht.2 hside).1
    · rw [dropSides, if_neg hside, h0] at hs
      have := hs (.token (tokOf t)) (by simp [partOf])
      cases this
  | node j st js =>
    obtain ⟨ts, rfl⟩ := h.leaf j st js rfl
    have hfine := h.fine
    rw [Spec.Item.leaves, leaves_toks] at hfine
    obtain ⟨hf, -⟩ : Front grammar (ts.map .tok) ∧ True := by cases h.fronts with | node h _ => exact ⟨h, trivial⟩
    obtain ⟨hb, -⟩ : Back grammar (ts.map .tok) ∧ True := by cases h.tidy with | node _ h _ => exact ⟨h, trivial⟩
    rw [dropSides, h0] at hs
    have hp := hs (partOf names (.node j st (dropSides grammar (ts.map .tok)))) (by simp)
    rw [partOf, leaves_dropSides, leaves_toks] at hp
    rw [partOf, leaves_toks]
    generalize hP : Part.node (names j) (solids ts) = P at hp
    cases hp with
    | sep =>
      simp only [sepPart, Part.node.injEq] at hP
      rw [hP.1, sep_toks hf hb hP.2]
      exact .sep
    | entry hl =>
      simp only [Part.node.injEq] at hP
      rw [hP.1]
      exact .entry (entry_toks hfine hf hb (hP.2 ▸ hl))

theorem parts_clean {js : List Spec.Item} (h : ∀ y ∈ js, LeafyPart y) (hs : ∀ p ∈ (dropSides grammar js).map (partOf names), PartShape p) :
    ∀ p ∈ js.map (partOf names), PartClean p := by
  intro p hp
  obtain ⟨y, hy, rfl⟩ := List.mem_map.mp hp
  refine part_clean (h y hy) fun q hq => ?_
  obtain ⟨z, hz, rfl⟩ := List.mem_map.mp hq
  refine hs _ (List.mem_map_of_mem ?_)
  have h0 : dropSides grammar [] = [] := by rw [dropSides]
  cases y with
  | tok t =>
    rw [dropSides, h0] at hz
    split at hz
    · simp at hz
    · rename_i hn
      rw [List.mem_singleton.mp hz]
      exact mem_dropSides.1 t hy (by simpa using hn)
  | node i st ks =>
    rw [dropSides, h0] at hz
    rw [List.mem_singleton.mp hz]
    exact mem_dropSides.2 i st ks hy

theorem leaves_split {x : Spec.Item} {items : List Spec.Item} (h : x ∈ items) : ∃ a b, leavesOf items = a ++ (x.leaves ++ b) := by
  obtain ⟨a, b, rfl⟩ := List.append_of_mem h
  exact ⟨leavesOf a, leavesOf b, by simp [leavesOf_append, leavesOf]⟩

/-- A document without comments on lines with entries and headers is clean. -/
theorem clean_of {items : List Spec.Item} (hfine : Fine (leavesOf items)) (hT : DocShape (docOf names (dropSides grammar items)))
    (hfront : ∀ x ∈ items, Fronts grammar x) (htidy : ∀ x ∈ items, Tidy grammar x)
    (hleaf : ∀ x ∈ items, ∀ i st its, x = .node i st its → ∀ y ∈ its, ∀ j st' js, y = .node j st' js → ∃ ts : List Token, js = ts.map .tok) :
    Clean (docOf names items) := by
  refine ⟨fun it hi => ?_, ?_⟩
  · obtain ⟨x, hx, rfl⟩ := List.mem_map.mp hi
    obtain ⟨a, b, e⟩ := leaves_split hx
    rw [e] at hfine
    have hfine := hfine.part
    cases x with
    | tok t =>
      have ht := hfine.toks t (by simp [Spec.Item.leaves])
      by_cases hside : grammar.isSideType t.type = true
      · exact .side (side_ok ht.1 ht.2 hside).1
      · have := hT.items _ (List.mem_map_of_mem (mem_dropSides.1 t hx (by simpa using hside)))
        cases this
    | node i st js =>
      have hs := hT.items _ (List.mem_map_of_mem (mem_dropSides.2 i st js hx))
      have hfj : Front grammar js ∧ ∀ y ∈ js, Fronts grammar y := by cases hfront _ hx with | node h h' => exact ⟨h, h'⟩
      have htj : ∀ y ∈ js, Tidy grammar y := by cases htidy _ hx with | node _ _ h => exact h
      have hl : ∀ y ∈ js, LeafyPart y := by
        intro y hy
        obtain ⟨a', b', e'⟩ := leaves_split hy
        rw [Spec.Item.leaves, e'] at hfine
        exact ⟨hfine.part, hfj.2 y hy, htj y hy, fun j st' ks e => hleaf _ hx i st js rfl y hy j st' ks e⟩
      rw [itemOf] at hs ⊢
      generalize hI : Spec.Conf.Item.node (names i) ((dropSides grammar js).map (partOf names)) = I at hs
      cases hs with
      | default hp =>
        simp only [Spec.Conf.Item.node.injEq] at hI
        rw [hI.1]
        exact .default (parts_clean hl (hI.2 ▸ hp))
      | @«section» l ps hh hp =>
        simp only [Spec.Conf.Item.node.injEq] at hI
        rw [hI.1]
        cases js with
        | nil => rw [dropSides] at hI; simp at hI
        | cons y js =>
          cases y with
          | tok t =>
            rw [dropSides, if_neg (by rw [hfj.1 t js rfl]; simp)] at hI
            simp [partOf] at hI
          | node j st' ks =>
            obtain ⟨ts, rfl⟩ := (hl _ List.mem_cons_self).leaf j st' ks rfl
            have hfine' := (hl _ List.mem_cons_self).fine
            rw [Spec.Item.leaves, leaves_toks] at hfine'
            have hf : Front grammar (ts.map .tok) := by cases (hl _ List.mem_cons_self).fronts with | node h _ => exact h
            have hb : Back grammar (ts.map .tok) := by cases (hl _ List.mem_cons_self).tidy with | node _ h _ => exact h
            rw [dropSides, List.map_cons, List.cons.injEq, partOf, leaves_dropSides, leaves_toks, Part.node.injEq] at hI
            rw [List.map_cons, partOf, leaves_toks, hI.2.1.1]
            exact .section (header_toks hfine' hf hb (by rw [solids, hI.2.1.2]; exact hh)) (parts_clean (fun y hy => hl y (by simp [hy])) (hI.2.2 ▸ hp))
  · have := hT.first
    clear hfine hT hfront htidy hleaf
    induction items with
    | nil => simp [docOf]
    | cons x items ih =>
      cases x with
      | tok t =>
        rw [dropSides] at this
        refine List.pairwise_cons.mpr ⟨fun _ _ _ => rfl, ih ?_⟩
        split at this
        · exact this
        · exact (List.pairwise_cons.mp this).2
      | node i st js =>
        rw [dropSides] at this
        have h := List.pairwise_cons.mp this
        refine List.pairwise_cons.mpr ⟨fun k hk e => ?_, ih h.2⟩
        obtain ⟨z, hz, rfl⟩ := List.mem_map.mp hk
        obtain ⟨y, hy, rfl⟩ := List.mem_map.mp hz
        cases y with
        | tok t => simp [itemOf, itemKind] at e
        | node i' st' js' =>
          have := h.1 (itemKind (itemOf names (.node i' st' (dropSides grammar js'))))
            (List.mem_map_of_mem (List.mem_map_of_mem (mem_dropSides.2 i' st' js' hy))) e
          exact this

end Verif.Proof.Conf
