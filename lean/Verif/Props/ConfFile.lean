/-
C78: the configuration editor, from a file to a file.
-/
import Verif.Proof.ConfParse
import Verif.Props.ConfEdit
import Verif.Props.Source

namespace Verif.Props.Conf

open Verif Verif.Model Verif.Model.ConfEdit Verif.Spec Verif.Spec.Ebnf Verif.Spec.Conf Verif.Proof Verif.Proof.Conf Verif.Props
open Verif.Model.Tree (bindRun Heap treeHeap)
open Verif.Proof.ConfTree (Parsed labels)
open Verif.Spec.Trees (Forest)
open Verif.Spec.Text (normalize)

theorem prepare_eq (file : List Nat) : prepare file = some (readable file) := by
  rw [prepare, (C08_normalizeNls file).1, Option.bind_some, readable]
  rcases List.eq_nil_or_concat (normalize file) with h | ⟨a, b, h⟩
  · rw [h]; rfl
  · have hb : Go.index (a ++ [b]) (((a ++ [b]).length : Int) - 1) = some b := by
      have : (((a ++ [b]).length : Int) - 1) = ((a.length : Nat) : Int) := by simp
      rw [this, Go.index, if_pos (by omega), Int.toNat_natCast]
      simp
    rw [h, List.concat_eq_append, if_pos (by simp), hb]
    by_cases e : b = 10 <;> simp [e]

/-- The queue with the only source. -/
theorem queue_holds (src : Src) : ∃ q q', SrcQueue.new = some q ∧ q.append (some src) = some q' ∧ Lexer.Holds q' [(src, 0)] := by
  obtain ⟨q, e, r⟩ := SrcQueue.new_rep
  obtain ⟨q1, e1, r1⟩ := r.append src
  exact ⟨q, q1, e, e1, r1, ⟨by simp, by simp, by simp⟩, by simp⟩

theorem spells_leaves {g : Grammar} {upper : List Nat → List Nat} {L : Nat → List Sym → Prop} {w : List Sym} {items : List Spec.Item}
    (h : Spells (fun x t => (∃ k, x = .tok k ∧ MatchesAs g upper t k) ∧ g.isSideType t.type = false) (fun t => g.isSideType t.type = true) L w items) :
    ∀ t ∈ leavesOf items, t.type ≠ eoiTokenType ∧ t.type ≠ eofTokenType := by
  have hside : ∀ t : Token, g.isSideType t.type = true → t.type ≠ eoiTokenType ∧ t.type ≠ eofTokenType := by
    intro t h
    unfold Grammar.isSideType at h
    split at h
    · simp only [eoiTokenType, eofTokenType]; omega
    · cases h
  have htok : ∀ (t : Token) k, MatchesAs g upper t k → t.type ≠ eoiTokenType ∧ t.type ≠ eofTokenType := by
    intro t k h
    simp only [eoiTokenType, eofTokenType]
    rcases h with ⟨h0, -⟩ | ⟨h1, -⟩ <;> omega
  induction h with
  | nil => intro t ht; simp [leavesOf] at ht
  | side hs _ ih =>
    intro t ht
    simp only [leavesOf, Spec.Item.leaves, List.mem_append, List.mem_singleton] at ht
    rcases ht with rfl | ht
    · exact hside _ hs
    · exact ih t ht
  | tok hr _ ih =>
    intro t ht
    simp only [leavesOf, Spec.Item.leaves, List.mem_append, List.mem_singleton] at ht
    rcases ht with rfl | ht
    · obtain ⟨⟨k, -, hk⟩, -⟩ := hr
      exact htok _ k hk
    · exact ih t ht
  | node _ _ _ ih1 ih2 =>
    intro t ht
    simp only [leavesOf, Spec.Item.leaves, List.mem_append] at ht
    rcases ht with ht | ht
    · exact ih1 t ht
    · exact ih2 t ht

/-- The parse always ends with the same result. -/
theorem parse_ends {re : List Nat → Option Matcher} {lexers : List Lexer} (hl : LexersOf re tokens lexers) (upper : List Nat → List Nat) {src : Src}
    {q : SrcQueue} (hq : Lexer.Holds q [(src, 0)]) :
    ∃ r N, ∀ n k, N ≤ n → N ≤ k → parse (confEnv upper lexers n) k ⟨[], ⟨q, ()⟩⟩ q.sourcePos = .done r :=
  C73_hooks_ends_partial conf_compiled conf_noEoi (by simp [bodies]) conf_below conf_moves conf_safeMachines
    (withTree { g := grammar, upper := upper, pull := fun _ _ => .panic, unread := fun _ _ => none, passSides := true : PEnv Unit }) rfl
    { g := grammar, lexers := lexers } rfl (conf_typesBelow hl) (conf_mask hl) (Q := fun _ => True) (layers := []) (by intro l hl; cases hl)
    (φ := fun _ _ => 0) (K := 1) trivial (by intro h; cases h) () trivial q hq (by simp) q.sourcePos

/-- What is known about a successful parse. -/
theorem parse_read {re : List Nat → Option Matcher} {lexers : List Lexer} (hl : LexersOf re tokens lexers) {upper : List Nat → List Nat} {src : Src}
    {q : SrcQueue} (hq : Lexer.Holds q [(src, 0)]) {n k : Nat} (hn : src.content.length < n) {pc : PC (LState Unit)}
    (h0 : parse (confEnv upper lexers n) k ⟨[], ⟨q, ()⟩⟩ q.sourcePos = .done (.ok pc)) :
    ∃ (F : Forest) (T : Trees.Tree) (items : List Spec.Item) (p : Nat), pc.lastResult = some T.id ∧
      Parsed ⟨treeHeap names pc.log, pc.log.length⟩ F T.id ∧ Reads grammar upper re Words src.content p items ∧
      docAt (labels (treeHeap names pc.log)) F T.id = docOf names items ∧ (docOf names items).Good ∧ (docOf names items).text = src.content.take p ∧
      leavesOf items = (consumedBy pc.steps).reduceOption ∧ (∀ t ∈ leavesOf items, Named t ∧ t.type ≠ eoiTokenType) ∧ T.Of F ∧
      Built (lookAt (treeHeap names pc.log)) names T (.node rootNode (some (rootToken q.sourcePos)) items) ∧ (∀ x ∈ items, Fronts grammar x) ∧
      ∀ x ∈ items, ∀ i st its, x = .node i st its → ∀ y ∈ its, ∀ j st' js, y = .node j st' js → ∃ ts : List Token, js = ts.map .tok := by
  obtain ⟨items, h1, ⟨w, hw, hsp⟩, -, ⟨hooks, results, h4, ⟨f, hf, hwalk⟩, h5⟩, htidy⟩ := accepted_words conf_compiled conf_loops conf_safeMachines
    conf_distinct (confEnv upper lexers n) rfl (feeds_true _) (safeOn_of_safe (safe_of_single rfl) _) h0
  have hkinds := spells_leaves hsp
  obtain ⟨p, hcut⟩ := parse_cut_part
    (withTree { g := grammar, upper := upper, pull := fun _ _ => .panic, unread := fun _ _ => none, passSides := true : PEnv Unit })
    rfl (tenv := { g := grammar, lexers := lexers }) hl (n := n) (by omega) (src := src)
    (ls := ⟨[], ⟨q, ()⟩⟩) ⟨hq, by simpa using hn⟩ h0 (by rw [← h1]; exact fun t ht => (hkinds t ht).1)
  rw [← h1] at hcut
  obtain ⟨-, hle, htext⟩ := cuts_text hcut (Nat.zero_le _) hl.matchers
  have hnamed : ∀ t ∈ leavesOf items, Named t := fun t ht => cuts_named hcut t ht (hkinds t ht).2
  have hsp' : Spells Rel Side Words w items := spells_imp hsp
    (by rintro t ht x ⟨⟨j, rfl, hj⟩, -⟩; exact ⟨j, rfl, named_matches (hnamed t ht) hj⟩) (fun t ht hs => ⟨named_side (hnamed t ht) hs, hs⟩)
  have hfronts := walk_fronts (conf_enters upper) hwalk htidy
  obtain ⟨hgood, hleaf⟩ := doc_good hw hsp' hfronts
  have ht : TreeHooks (confEnv upper lexers n) := withTree_hooks
    (pipelineEnv { g := grammar, upper := upper, pull := fun _ _ => .panic, unread := fun _ _ => none, passSides := true : PEnv Unit }
      { g := grammar, lexers := lexers } [] n)
  obtain ⟨-, h6⟩ := nodeRun_grows ht names h4
  obtain ⟨F, T, gr, -, -, k3, k4, k5, k6, k7, rs, rfl⟩ := h6 _ grown_start
  have hlast : pc.lastResult = some T.id := by
    cases h4 with
    | mk hm _ _ =>
      obtain ⟨hs, -, rfl, -, -⟩ := makes_tree ht hm
      obtain ⟨rs', hrs⟩ := h5 rfl _ _ rfl
      simp only [List.cons.injEq] at hrs
      exact hrs.1.symm
  obtain ⟨hdoc, hflat⟩ := built_doc k7 k4 (fun x hx i st its e y hy j st' js e' => hleaf x hx i st its e y hy j st' js e')
  have hroot : T.id ∈ T.elements := by cases T; simp [Trees.Tree.id, Trees.Tree.elements]
  refine ⟨F, T, items, p, hlast, ⟨⟨gr.rep, gr.kids, fun n p hn => gr.out n hn p, ?_⟩, hflat,
    (k6 _ hroot).2, k5⟩, ⟨hle, ⟨_, rfl, hcut⟩, ⟨w, hw, ?_⟩, htidy⟩, hdoc, hgood, ?_, h1, fun t ht => ⟨hnamed t ht, (hkinds t ht).1⟩, k4, k7, hfronts, hleaf⟩
  · intro n p' hn hi
    rcases k3 n p' hn with h | h
    · simp [Trees.Forest.empty] at h
    · exact built_words k7 n h hi
  · refine spells_mono (Q := fun _ => True) ?_ (fun _ _ _ h => ⟨h, fun _ _ => trivial⟩) hsp fun _ _ => trivial
    rintro x t - ⟨⟨j, rfl, hj⟩, -⟩
    exact hj
  · rw [docOf_text, htext]
    simp

/-- What is read from the result of the parse. -/
def readResult (r : Except PErr (PC (LState Unit))) : Run (Except PErr (Mem × Nat)) :=
  bindRes (.done r) fun pc =>
    match pc.lastResult with
    | some root => .done (.ok (⟨treeHeap names pc.log, pc.log.length⟩, root))
    | none => .panic

/-- Reading is the parse of the prepared file. -/
theorem read_eq {upper : List Nat → List Nat} {lexers : List Lexer} {name : String} {file : List Nat} {q q' : SrcQueue} (e1 : SrcQueue.new = some q)
    (e2 : q.append (some ⟨0, name, readable file⟩) = some q') {k : Nat} {r : Except PErr (PC (LState Unit))}
    (h : parse (confEnv upper lexers k) k ⟨[], ⟨q', ()⟩⟩ q'.sourcePos = .done r) : readTree upper lexers k name file = readResult r := by
  rw [readTree, prepare_eq, e1]
  simp only [orPanic, e2]
  rw [h]
  rfl

/-- C78, reading of any file: it ends with a parse error or with a tree of elements. The tree is the document of items that are read from
the beginning of the file; the text of the document is that beginning. -/
theorem C78_read {re : List Nat → Option Matcher} {lexers : List Lexer} (hl : LexersOf re tokens lexers) (upper : List Nat → List Nat) (name : String)
    (file : List Nat) : ∃ N,
      (∃ e, ∀ k, N ≤ k → readTree upper lexers k name file = .done (.error e)) ∨
      ∃ (m : Mem) (F : Forest) (root : Nat) (items : List Spec.Item) (p : Nat),
        (∀ k, N ≤ k → readTree upper lexers k name file = .done (.ok (m, root))) ∧ Parsed m F root ∧
        Reads grammar upper re Words (readable file) p items ∧ docAt (labels m.heap) F root = docOf names items ∧
        (docOf names items).Good ∧ (docOf names items).text = (readable file).take p := by
  obtain ⟨q, q', e1, e2, hq⟩ := queue_holds ⟨0, name, readable file⟩
  obtain ⟨r, N, hN⟩ := parse_ends hl upper hq
  have hread : ∀ k, N ≤ k → readTree upper lexers k name file = readResult r := fun k hk => read_eq e1 e2 (hN k k hk hk)
  cases r with
  | error e => exact ⟨N, .inl ⟨e, fun k hk => by rw [hread k hk]; rfl⟩⟩
  | ok pc =>
    obtain ⟨F, T, items, p, h1, h2, h3, h4, h5, h6, -⟩ := parse_read hl hq (n := N + (readable file).length + 1) (k := N) (by simp; omega)
      (hN _ _ (by omega) (by omega))
    refine ⟨N, .inr ⟨_, F, T.id, items, p, fun k hk => ?_, h2, h3, h4, h5, h6⟩⟩
    rw [hread k hk]
    simp only [readResult, bindRes, h1]

/-! Commands -/

/-- What a flag means. -/
def kindOf : Flag → Kind
  | .r => .removeSection
  | .a => .addSection
  | .c => .removeValue
  | .s => .setValue

/-- Commands of flags. -/
def commandsOf (flags : List (Flag × List Nat)) : List (Kind × Bytes) := flags.map fun f => (kindOf f.1, f.2)

theorem isValid_iff (valid : List Nat → Bool) (s : List Nat) : isValidNameValue valid s = true ↔ ∃ n v, Assignment s n v ∧ valid n = true := by
  have key : ∀ {n v}, Assignment s n v → isValidNameValue valid s = valid n := by
    intro n v h
    cases h with
    | empty n hn => simp only [isValidNameValue, ConfTree.idx_none hn]
    | full n v hn => simp only [isValidNameValue, ConfTree.idx_append v hn, List.take_left']
  constructor
  · intro h
    obtain ⟨n, v, ha⟩ := ConfTree.assignment_exists s
    exact ⟨n, v, ha, key ha ▸ h⟩
  · rintro ⟨n, v, ha, hv⟩
    rw [key ha, hv]

theorem setFlags_spec (valid : List Nat → Bool) (flags : List (Flag × List Nat)) (k : Given) :
    ((∀ c ∈ commandsOf flags, Accepted valid c) →
      setFlags valid flags k = some ⟨k.rs ++ ofKind .removeSection (commandsOf flags), k.as ++ ofKind .addSection (commandsOf flags),
        k.cs ++ ofKind .removeValue (commandsOf flags), k.ss ++ ofKind .setValue (commandsOf flags)⟩) ∧
    ((∃ c ∈ commandsOf flags, ¬ Accepted valid c) → setFlags valid flags k = none) := by
  induction flags generalizing k with
  | nil => simp [commandsOf, setFlags, ofKind]
  | cons f flags ih =>
    obtain ⟨f, s⟩ := f
    have hacc : Accepted valid (kindOf f, s) → ∃ k', k.set valid f s = some k' ∧
        k'.rs = k.rs ++ (if kindOf f = .removeSection then [s] else []) ∧ k'.as = k.as ++ (if kindOf f = .addSection then [s] else []) ∧
        k'.cs = k.cs ++ (if kindOf f = .removeValue then [s] else []) ∧ k'.ss = k.ss ++ (if kindOf f = .setValue then [s] else []) := by
      intro h
      cases f
      case s =>
        have h := (isValid_iff valid s).mpr (by simpa only [Accepted, kindOf, if_true] using h)
        simp [Given.set, h, kindOf]
      all_goals
        simp [Accepted, kindOf] at h
        simp [Given.set, h, kindOf]
    have hrej : ¬ Accepted valid (kindOf f, s) → k.set valid f s = none := by
      intro h
      cases f
      case s =>
        have h : ¬ isValidNameValue valid s = true := fun e => h (by rw [isValid_iff] at e; simpa only [Accepted, kindOf, if_true] using e)
        simp [Given.set, h]
      all_goals
        simp [Accepted, kindOf] at h
        simp [Given.set, h]
    have hof : ∀ kd, ofKind kd (commandsOf ((f, s) :: flags)) = (if kindOf f = kd then [s] else []) ++ ofKind kd (commandsOf flags) := by
      intro kd
      simp only [commandsOf, ofKind, List.map_cons, List.filter_cons]
      by_cases e : kindOf f = kd <;> simp [e]
    constructor
    · intro h
      obtain ⟨k', h1, h2, h3, h4, h5⟩ := hacc (h _ (by simp [commandsOf]))
      rw [setFlags, h1, Option.bind_some, (ih k').1 (fun c hc => h c (by simp [commandsOf] at hc ⊢; exact .inr hc))]
      simp only [hof, h2, h3, h4, h5, List.append_assoc]
    · rintro ⟨c, hc, hn⟩
      rw [setFlags]
      by_cases ha : Accepted valid (kindOf f, s)
      · obtain ⟨k', h1, -⟩ := hacc ha
        rw [h1, Option.bind_some]
        refine (ih k').2 ⟨c, ?_, hn⟩
        simp only [commandsOf, List.map_cons, List.mem_cons] at hc
        rcases hc with rfl | hc
        · exact absurd ha hn
        · exact hc
      · rw [hrej ha]; rfl

/-- C78, partial: the whole program on any file with any flags. It ends with an error about flags exactly if some command is not accepted, with
an error about the size exactly if the file is too long, with a parse error, or the beginning of the file is read as a document.
If no section and no entry of the document is repeated then the program panics exactly at a command that breaks it (C72), or what it saves is the
text of the document after all the edits meant by commands; values of entries are those given by commands, all other values are kept.

What is missing: documents with repetitions (see `C72_section_stays`, `C72_value_is_lost`), and that the whole file is read
(see `C78_rest_is_lost`). -/
theorem C78_edit_partial {re : List Nat → Option Matcher} {lexers : List Lexer} (hl : LexersOf re tokens lexers) {trim : Bytes → Bytes} (ht : Trims trim)
    (valid : List Nat → Bool) (upper : List Nat → List Nat) (name : String) (flags : List (Flag × List Nat)) (file : Option (List Nat)) :
    ((∃ c ∈ commandsOf flags, ¬ Accepted valid c) ∧ ∀ k, editFile valid trim upper lexers k name flags file = .done .rejected) ∨
    (∀ c ∈ commandsOf flags, Accepted valid c) ∧
      (((file.getD []).length > 1048576 ∧ ∀ k, editFile valid trim upper lexers k name flags file = .done .tooLong) ∨
      (file.getD []).length ≤ 1048576 ∧
        ((∃ e N, ∀ k, N ≤ k → editFile valid trim upper lexers k name flags file = .done (.failed e)) ∨
        ∃ items p, Reads grammar upper re Words (readable (file.getD [])) p items ∧ (docOf names items).text = (readable (file.getD [])).take p ∧
          (docOf names items).Good ∧
          ∀ es, (Commands.of (commandsOf flags)).Mean trim es → (docOf names items).Distinct → (docOf names items).Separate →
            (∃ es₁ x es₂ d₁, es = es₁ ++ x :: es₂ ∧ Edits trim (docOf names items) es₁ d₁ ∧ x.Breaks d₁ ∧
              ∃ N, ∀ k, N ≤ k → editFile valid trim upper lexers k name flags file = .panic) ∨
            ∃ c d', (∃ N, ∀ k, N ≤ k → editFile valid trim upper lexers k name flags file = .done (.edited c d'.text)) ∧
              Edits trim (docOf names items) es d' ∧
              (∀ s e, d'.lookup trim s e = es.foldl (fun f x => x.apply trim f) ((docOf names items).lookup trim) s e) ∧
              (¬ c.Updated → d' = docOf names items) ∧ d'.Good ∧ d'.Distinct ∧ d'.Separate)) := by
  by_cases ha : ∀ c ∈ commandsOf flags, Accepted valid c
  · refine .inr ⟨ha, ?_⟩
    have hset := (setFlags_spec valid flags ⟨[], [], [], []⟩).1 ha
    simp only [List.nil_append] at hset
    by_cases hlen : (file.getD []).length > 1048576
    · exact .inl ⟨hlen, fun k => by simp only [editFile, hset, hlen, if_true]⟩
    · refine .inr ⟨by omega, ?_⟩
      have hedit : ∀ k, editFile valid trim upper lexers k name flags file =
          bindRun (readTree upper lexers k name (file.getD [])) fun r =>
            match r with
            | .error e => .done (.failed e)
            | .ok (m, root) => bindRun (savedText trim k m root (Commands.of (commandsOf flags)).removeSections (Commands.of (commandsOf flags)).addSections
                (Commands.of (commandsOf flags)).removeValues (Commands.of (commandsOf flags)).setValues) fun x => .done (.edited x.1 x.2) := by
        intro k
        simp only [editFile, hset, hlen, if_false]
        rfl
      obtain ⟨N, ⟨e, he⟩ | ⟨m, F, root, items, p, h1, h2, h3, h4, h5, h6⟩⟩ := C78_read hl upper name (file.getD [])
      · exact .inl ⟨e, N, fun k hk => by rw [hedit, he k hk]; rfl⟩
      · refine .inr ⟨items, p, h3, h6, h5, fun es hes hd hs => ?_⟩
        rcases C72_conf_edit_partial ht h2 h4 h5 hd hs hes with ⟨es₁, x, es₂, d₁, g1, g2, g3, N', hN'⟩ | ⟨c, d', ⟨N', hN'⟩, g2, g3, g4, g5⟩
        · refine .inl ⟨es₁, x, es₂, d₁, g1, g2, g3, max N N', fun k hk => ?_⟩
          rw [hedit, h1 k (by omega)]
          simp only [bindRun]
          rw [hN' k (by omega)]
        · refine .inr ⟨c, d', ⟨max N N', fun k hk => ?_⟩, g2, g3, g4, g5⟩
          rw [hedit, h1 k (by omega)]
          simp only [bindRun]
          rw [hN' k (by omega)]
  · have ha : ∃ c ∈ commandsOf flags, ¬ Accepted valid c := by push Not at ha; exact ha
    refine .inl ⟨ha, fun k => ?_⟩
    simp only [editFile, (setFlags_spec valid flags ⟨[], [], [], []⟩).2 ha]

end Verif.Props.Conf
