/-
C79: configuration files are read to the end, with exactly the entries that their lines state.
-/
import Verif.Proof.ConfPlain
import Verif.Proof.CutsWhole
import Verif.Proof.OneTokenCheck

namespace Verif.Props.Conf

open Verif Verif.Model Verif.Model.ConfEdit Verif.Spec Verif.Spec.Ebnf Verif.Spec.Conf Verif.Proof Verif.Proof.Conf Verif.Props
open Verif.Model.Tree (bindRun Heap treeHeap)
open Verif.Proof.ConfTree (Parsed labels)
open Verif.Spec.Trees (Forest)
open Verif.Props.Style (isLetter)

/-- There are no carriage returns in what is read. -/
theorem readable_noReturn (file : List Nat) : 13 ∉ readable file := by
  have h : 13 ∉ Spec.Text.normalize file := Model.normalize_no_cr file
  rw [readable]
  split
  · exact h
  · simp [h]

/-- The hypotheses about the tables. -/
theorem conf_predicts : Means grammar.tables (tableOf grammar) ∧ RulesClosed grammar (tableOf grammar) ∧
    (∀ (s : Nat) (k : Int), tableOf grammar s k ≠ [] → 0 ≤ k ∨ k = anyToken) ∧
    Predicts grammar (tableOf grammar) (certOf grammar 20).nodeOf (fun s k => k ∈ (certOf grammar 20).nextOf s) (fun i k => k ∈ (certOf grammar 20).afterOf i) ∧
    (∀ (s : Nat) (k : Int), (tableOf grammar s k).length ≤ 1) ∧
    ∀ (s : Nat) (k : Int) (r : Rule), r ∈ tableOf grammar s k → r.state = finalState → (certOf grammar 20).nodeOf s = rootNode → k = anyToken := by
  obtain ⟨hm, hc, ⟨heads, ho⟩, -, -⟩ := compiled_tables conf_compiled conf_loops conf_safeMachines
  have key1 : ∀ s < 15, ∀ k ∈ ruleKeys grammar, (tableOf grammar s k).length ≤ 1 := by decide +kernel
  have key2 : ∀ s < 15, ∀ k ∈ ruleKeys grammar, ∀ r ∈ tableOf grammar s k, r.state = finalState → (certOf grammar 20).nodeOf s = rootNode →
      k = anyToken := by decide +kernel
  have h15 : grammar.tables.states.length = 15 := by decide +kernel
  refine ⟨hm, hc, ho.keys, predicts_of_check hm (by decide +kernel), fun s k => ?_, fun s k r hr => ?_⟩
  · by_cases hne : tableOf grammar s k = []
    · rw [hne]; simp
    · exact key1 s (h15 ▸ tableOf_lt hne) k (tableOf_key hm hne)
  · have hne := List.ne_nil_of_mem hr
    exact key2 s (h15 ▸ tableOf_lt hne) k (tableOf_key hm hne) r hr

/-- The parse of tokens that are read by the machines. -/
theorem lines_parse {re : List Nat → Option Matcher} {lexers : List Lexer} (hl : LexersOf re tokens lexers)
    {upper : List Nat → List Nat} {src : Src} {q : SrcQueue} (hq : Lexer.Holds q [(src, 0)]) {toks : List Token} {ks : List (Token × Nat)}
    {T : List Spec.Item} (hcut : CutsFor re tokens (Requested grammar upper comesIn false) [(src, 0)] toks [])
    (hkeys : KeyedBy (Readable grammar upper (tableOf grammar) alsoSign) (Spec.Passed grammar) toks ks)
    (hway : Goes [⟨((0 : Nat) : Int), 0, some (rootToken q.sourcePos), []⟩] ks T) {n : Nat} (hn : src.content.length < n) :
    ∃ N, ∀ k, N ≤ k → ∃ pc its, parse (confEnv upper lexers n) k ⟨[], ⟨q, ()⟩⟩ q.sourcePos = .done (.ok pc) ∧
      Closed (confEnv upper lexers n) anyRule (some (rootToken q.sourcePos)) its pc.log pc.lastResult ∧
      dropSides grammar its = T ∧ Lexer.Holds pc.src.ps.src [] := by
  obtain ⟨n, rfl⟩ : ∃ k, n = k + 1 := ⟨n - 1, by omega⟩
  obtain ⟨hm, hc, hk, hp, hone, hroot⟩ := conf_predicts
  have hpass : HooksPass ({ g := grammar, upper := upper, pull := fun _ _ => .panic, unread := fun _ _ => none, passSides := true } : PEnv Unit) :=
    ⟨fun _ _ => ⟨_, rfl⟩, fun _ _ => ⟨_, rfl⟩⟩
  have h15 : grammar.tables.states.length = 15 := by decide +kernel
  obtain ⟨N, hN⟩ := run_followed_on (env := confEnv upper lexers (n + 1)) (m := tableOf grammar) (also := alsoSign)
    (ok := fun s ks => comesIn s (nextKey ks)) (F := Requested grammar upper comesIn false)
    (Q := TextFor re tokens (Requested grammar upper comesIn false) (n + 1))
    ⟨hm, conf_distinct, withTree_answer (env := pipelineEnv { g := grammar, upper := upper, pull := fun _ _ => .panic, unread := fun _ _ => none, passSides := true : PEnv Unit }
        { g := grammar, lexers := lexers } [] (n + 1)) hpass, hc, hk, hp, hone, fun s k k' hne ha _ => by
        rw [show k' = 5 from ha.2]
        exact not_sign s (h15 ▸ tableOf_lt hne),
      text_supplies_on _ hl (fun i t h _ => by have := (List.getElem?_eq_some_iff.mp h).1; have h10 : tokens.length = 10 := rfl; omega) _ n,
      fun s gs toks ks h1 h2 h3 => .inl ⟨s, gs, _, h1, rfl, h3, begins_of_keys h2⟩, fun h => by cases h⟩
    (first := 0) rfl (q := ⟨[], ⟨q, ()⟩⟩) (ts := toks) ⟨_, ⟨hq, by simpa using hn⟩, hcut⟩ hkeys q.sourcePos hway
  refine ⟨N, fun k hk => ?_⟩
  obtain ⟨pc, h1, ⟨its, h2, h3⟩, rest, ⟨l', hat, hcut'⟩, hk', hend⟩ := hN k hk
  refine ⟨pc, its, h1, h2, h3, ?_⟩
  rcases hend with rfl | ⟨s, gs, h4, h5⟩ | ⟨s, k, r, h4, h5, h6, h7⟩
  · cases hcut'; exact hat.1
  · exact absurd ⟨0, _, rfl, by simp [tokens], (state_types h4).1⟩ h5
  · exact absurd (hroot s k r h4 h5 h6) h7

/-- A file that is cut into tokens that are read by the machines is read to the end; the tree is the same for all such cuts. -/
theorem file_read {re : List Nat → Option Matcher} {lexers : List Lexer} (hl : LexersOf re tokens lexers) (upper : List Nat → List Nat) (name : String)
    {file : List Nat} {q q' : SrcQueue} (e1 : SrcQueue.new = some q) (e2 : q.append (some ⟨0, name, readable file⟩) = some q')
    (hq : Lexer.Holds q' [(⟨0, name, readable file⟩, 0)]) {toks0 : List Token} {ks0 : List (Token × Nat)} {T0 : List Spec.Item}
    (hcut0 : CutsFor re tokens (Requested grammar upper comesIn false) [(⟨0, name, readable file⟩, 0)] toks0 [])
    (hkeys0 : KeyedBy (Readable grammar upper (tableOf grammar) alsoSign) (Spec.Passed grammar) toks0 ks0)
    (hway0 : Goes [⟨((0 : Nat) : Int), 0, some (rootToken q'.sourcePos), []⟩] ks0 T0) :
    ∃ (N : Nat) (m : Mem) (F : Forest) (root : Nat) (items : List Spec.Item) (body : List Token),
      (∀ k, N ≤ k → readTree upper lexers k name file = .done (.ok (m, root))) ∧ Parsed m F root ∧ docAt (labels m.heap) F root = docOf names items ∧
      (docOf names items).Good ∧ (docOf names items).text = readable file ∧ leavesOf items = body ∧
      Cuts re tokens [(⟨0, name, readable file⟩, 0)] (body ++ [endOf ⟨0, name, readable file⟩]) [] ∧
      (∀ t ∈ body, Named t) ∧ (∀ x ∈ items, Fronts grammar x) ∧ (∀ x ∈ items, Tidy grammar x) ∧
      (∀ x ∈ items, ∀ i st its, x = .node i st its → ∀ y ∈ its, ∀ j st' js, y = .node j st' js → ∃ ts : List Token, js = ts.map .tok) ∧
      ∀ toks ks T, CutsFor re tokens (Requested grammar upper comesIn false) [(⟨0, name, readable file⟩, 0)] toks [] →
        KeyedBy (Readable grammar upper (tableOf grammar) alsoSign) (Spec.Passed grammar) toks ks →
        Goes [⟨((0 : Nat) : Int), 0, some (rootToken q'.sourcePos), []⟩] ks T →
        ∃ its, dropSides grammar its = T ∧ leavesOf its = body ∧ docOf names its = docOf names items ∧
          docOf names (dropSides grammar items) = docOf names T := by
  obtain ⟨r, N, hN⟩ := parse_ends hl upper hq
  have key : ∀ toks ks T, CutsFor re tokens (Requested grammar upper comesIn false) [(⟨0, name, readable file⟩, 0)] toks [] →
      KeyedBy (Readable grammar upper (tableOf grammar) alsoSign) (Spec.Passed grammar) toks ks →
      Goes [⟨((0 : Nat) : Int), 0, some (rootToken q'.sourcePos), []⟩] ks T → ∃ pc its, r = .ok pc ∧
        Closed (confEnv upper lexers (N + (readable file).length + 1)) anyRule (some (rootToken q'.sourcePos)) its pc.log pc.lastResult ∧
        dropSides grammar its = T ∧ Lexer.Holds pc.src.ps.src [] := by
    intro toks ks T g1 g2 g3
    obtain ⟨N1, h1⟩ := lines_parse hl hq g1 g2 g3 (n := N + (readable file).length + 1) (by simp; omega)
    obtain ⟨pc, its, h2, h3⟩ := h1 (N + N1) (by omega)
    rw [hN _ _ (by omega) (by omega)] at h2
    cases h2
    exact ⟨pc, its, rfl, h3⟩
  obtain ⟨pc, -, rfl, -, -, hend⟩ := key _ _ _ hcut0 hkeys0 hway0
  have hp := hN (N + (readable file).length + 1) N (by omega) (by omega)
  obtain ⟨F, T, items, p, h1, h2, h3, h4, h5, -, h7, h8, h9, h10, h11, h12⟩ := parse_read hl hq (n := N + (readable file).length + 1) (by simp; omega) hp
  obtain ⟨toks, hcut, hcons⟩ := parse_cut_whole
    (withTree { g := grammar, upper := upper, pull := fun _ _ => .panic, unread := fun _ _ => none, passSides := true : PEnv Unit })
    rfl rfl (tenv := { g := grammar, lexers := lexers }) hl (n := N + (readable file).length + 1) (by omega)
    (ls := ⟨[], ⟨q', ()⟩⟩) ⟨hq, by simp; omega⟩ hp hend (by rw [← h7]; exact fun t ht => (h8 t ht).2)
  obtain ⟨body, rfl, -, hkeep, htext⟩ := whole_text hcut (by simp) hl.matchers grammar
  have hbody : leavesOf items = body := h7.trans (hcons.trans hkeep)
  refine ⟨N, _, F, T.id, items, body, fun k hk => ?_, h2, h4, h5, ?_, hbody, hcut, fun t ht => (h8 t (hbody ▸ ht)).1, h11, h3.tidy, h12, ?_⟩
  · rw [read_eq e1 e2 (hN k k hk hk)]
    simp only [readResult, bindRes, h1]
  · rw [docOf_text, hbody]
    simpa using htext
  · intro toks ks T1 g1 g2 g3
    obtain ⟨pc', its, e, h11, h12, -⟩ := key toks ks T1 g1 g2 g3
    cases e
    obtain ⟨F', T', h13, h14, -, h16, h17⟩ := rep_of_closed (env := pipelineEnv
      { g := grammar, upper := upper, pull := fun _ _ => .panic, unread := fun _ _ => none, passSides := true : PEnv Unit }
      { g := grammar, lexers := lexers } [] (N + (readable file).length + 1)) names h11
    have hF : F' = F := ConfTree.rep_unique h2.1.rep h14
    subst hF
    have hT : T' = T := Tree.tree_unique _ _ h16 h9 (Option.some.inj (h13.symm.trans h1))
    subst hT
    cases T' with
    | node id kids =>
      simp only [Built] at h10 h17
      obtain ⟨g4, -, g6⟩ := builts_same h10.2 h17.2
      obtain ⟨g7, -⟩ := builts_drop h10.2 h17.2
      exact ⟨its, h12, g4.symm.trans hbody, g6.symm, by rw [docOf, g7, h12]; rfl⟩

/-- C79: let expressions of tokens mean what they should. If the file consists of lines (blank lines, comments, entries with values or
with nothing, section headers), then it is read without errors to the very end, and the document has exactly the entries and sections stated by
the lines, in their order. -/
theorem C79_lines_are_read {re : List Nat → Option Matcher} {lexers : List Lexer} (hl : LexersOf re tokens lexers) (hs : SameMatchers re)
    (upper : List Nat → List Nat) (name : String) {file : List Nat} {lines : List Line} (hf : FileText lines (readable file)) :
    ∃ (N : Nat) (m : Mem) (F : Forest) (root : Nat) (d : Doc),
      (∀ k, N ≤ k → readTree upper lexers k name file = .done (.ok (m, root))) ∧ Parsed m F root ∧ docAt (labels m.heap) F root = d ∧ d.Good ∧
      d.text = readable file ∧ (∀ trim, d.entries trim = entriesOf trim [] lines) ∧ d.filterMap Item.name = sectionsOf lines := by
  obtain ⟨q, q', e1, e2, hq⟩ := queue_holds ⟨0, name, readable file⟩
  obtain ⟨ks, hks, toks, hcut, hkeys, -⟩ := file_cut (src := ⟨0, name, readable file⟩) (upper := upper) hs (readable_noReturn file) hf (p := 0) (by omega) rfl
  obtain ⟨T, hway, -⟩ := file_way hks id (some (rootToken q'.sourcePos))
  obtain ⟨N, m, F, root, items, body, h1, h2, h3, h4, h5, h6, -, h8, -, -, -, h12⟩ := file_read hl upper name e1 e2 hq hcut hkeys hway
  have hstates : ∀ trim, (docOf names items).entries trim = entriesOf trim [] lines ∧ (docOf names items).filterMap Item.name = sectionsOf lines := by
    intro trim
    obtain ⟨T, hway, hst⟩ := file_way hks trim (some (rootToken q'.sourcePos))
    obtain ⟨its, g1, g2, g3, -⟩ := h12 toks ks T hcut hkeys hway
    have := states_sides (its := its) (fun t ht => h8 t (g2 ▸ ht)) (g1 ▸ hst)
    exact ⟨g3 ▸ this.entries, g3 ▸ this.sections⟩
  exact ⟨N, m, F, root, _, h1, h2, h3, h4, h5, fun trim => (hstates trim).1, (hstates id).2⟩

/-- If there are no comments on lines with entries then the document is clean. -/
theorem plain_read {re : List Nat → Option Matcher} {lexers : List Lexer} (hl : LexersOf re tokens lexers) (hs : SameMatchers re)
    (upper : List Nat → List Nat) (name : String) {file : List Nat} {lines : List Line} (hf : PlainText lines (readable file)) :
    ∃ (N : Nat) (m : Mem) (F : Forest) (root : Nat) (d : Doc),
      (∀ k, N ≤ k → readTree upper lexers k name file = .done (.ok (m, root))) ∧ docAt (labels m.heap) F root = d ∧ Parsed m F root ∧ Clean d := by
  obtain ⟨q, q', e1, e2, hq⟩ := queue_holds ⟨0, name, readable file⟩
  obtain ⟨ks, hks, toks, hcut, hkeys, hok, hflat, -⟩ := plain_cut (src := ⟨0, name, readable file⟩) (upper := upper) hs (readable_noReturn file) hf (p := 0)
    (by omega) rfl
  obtain ⟨T, hway, hsh⟩ := plain_way hks (some (rootToken q'.sourcePos))
  obtain ⟨N, m, F, root, items, body, h1, h2, h3, h4, h5, h6, h7, h8, h9, h10, h11, h12⟩ := file_read hl upper name e1 e2 hq hcut hkeys hway
  obtain ⟨its, g1, g2, g3, g4⟩ := h12 toks ks T hcut hkeys hway
  refine ⟨N, m, F, root, _, h1, h3, h2, clean_of ?_ (g4 ▸ hsh) h9 h10 h11⟩
  have hsame : toks = body ++ [endOf ⟨0, name, readable file⟩] := by
    refine cuts_same (cutsFor_cuts hcut) h7 ?_
    have e1 := way_leaves hway
    simp only [List.reverse_cons, List.reverse_nil, List.nil_append, List.flatMap_cons, List.flatMap_nil, List.append_nil, leavesOf] at e1
    rw [← keyed_ordinary hkeys, ← e1, ← g1, leaves_dropSides, g2, List.filter_append]
    have hend : [endOf ⟨0, name, readable file⟩].filter Conf.ordinary = [] := by
      rw [List.filter_cons_of_neg (by simp [Conf.ordinary, endOf])]; rfl
    rw [hend, List.append_nil]
    refine List.filter_congr fun t ht => ?_
    obtain ⟨i, hi, e, -⟩ := h8 t ht
    have : t.type ≠ eofTokenType := by rw [e]; simp only [eofTokenType]; omega
    simp [Conf.ordinary, this]
  subst hsame
  rw [h6]
  exact ⟨flat_part (a := []) (b := [endOf ⟨0, name, readable file⟩]) (hflat trivial), fun t ht => ⟨h8 t ht, hok t (by simp [ht])⟩⟩

/-- The program on a file that is read as a document with entries and sections stated by lines. -/
theorem read_edit {lexers : List Lexer} {trim : Bytes → Bytes} (ht : Trims trim) (valid : List Nat → Bool) (upper : List Nat → List Nat) (name : String)
    (flags : List (Flag × List Nat)) (hacc : ∀ c ∈ commandsOf flags, Accepted valid c) {file : Option (List Nat)} (hlen : (file.getD []).length ≤ 1048576)
    {lines : List Line} (hd : ((entriesOf id [] lines).map fun x => (x.1, x.2.1)).Nodup) (hsep : (sectionsOf lines).Nodup)
    {es : List Edit} (hes : (Commands.of (commandsOf flags)).Mean trim es) {N : Nat} {m : Mem} {F : Forest} {root : Nat} {d : Doc}
    (h1 : ∀ k, N ≤ k → readTree upper lexers k name (file.getD []) = .done (.ok (m, root))) (h2 : Parsed m F root) (h3 : docAt (labels m.heap) F root = d)
    (h4 : d.Good) (h5 : d.text = readable (file.getD [])) (h6 : ∀ trim, d.entries trim = entriesOf trim [] lines) (h7 : d.filterMap Item.name = sectionsOf lines) :
    (∃ es₁ x es₂ d₁, es = es₁ ++ x :: es₂ ∧ Edits trim d es₁ d₁ ∧ x.Breaks d₁ ∧
      ∃ N, ∀ k, N ≤ k → editFile valid trim upper lexers k name flags file = .panic) ∨
    ∃ c d', (∃ N, ∀ k, N ≤ k → editFile valid trim upper lexers k name flags file = .done (.edited c d'.text)) ∧ Edits trim d es d' ∧
      (∀ s e, d'.lookup trim s e = es.foldl (fun f x => x.apply trim f) (statedBy trim lines) s e) ∧ (¬ c.Updated → d'.text = readable (file.getD [])) ∧
      d'.Good ∧ d'.Distinct ∧ d'.Separate := by
  have hset := (setFlags_spec valid flags ⟨[], [], [], []⟩).1 hacc
  simp only [List.nil_append] at hset
  have hedit : ∀ k, editFile valid trim upper lexers k name flags file =
      bindRun (readTree upper lexers k name (file.getD [])) fun r =>
        match r with
        | .error e => .done (.failed e)
        | .ok (m, root) => bindRun (savedText trim k m root (Commands.of (commandsOf flags)).removeSections (Commands.of (commandsOf flags)).addSections
            (Commands.of (commandsOf flags)).removeValues (Commands.of (commandsOf flags)).setValues) fun x => .done (.edited x.1 x.2) := by
    intro k
    simp only [editFile, hset, if_neg (Nat.not_lt.mpr hlen)]
    rfl
  have hlook : d.lookup trim = statedBy trim lines := by
    funext s e
    rw [Doc.lookup, h6, statedBy]
  rcases C72_conf_edit_partial ht h2 h3 h4 (by rw [Doc.Distinct, h6]; exact hd) (by rw [Doc.Separate, h7]; exact hsep) hes with
    ⟨es₁, x, es₂, d₁, g1, g2, g3, N', hN'⟩ | ⟨c, d', ⟨N', hN'⟩, g2, g3, g4, g5⟩
  · refine .inl ⟨es₁, x, es₂, d₁, g1, g2, g3, max N N', fun k hk => ?_⟩
    rw [hedit, h1 k (by omega)]
    simp only [bindRun]
    rw [hN' k (by omega)]
  · rw [hlook] at g3
    refine .inr ⟨c, d', ⟨max N N', fun k hk => ?_⟩, g2, g3, fun h => by rw [g4 h, h5], g5⟩
    rw [hedit, h1 k (by omega)]
    simp only [bindRun]
    rw [hN' k (by omega)]

/-- C79, partial: the whole program on a file that consists of lines, with accepted commands. If no section and no entry is repeated in the lines then
the program panics exactly at a command that breaks it (C72), or what it saves is the text of the document of the whole file after all the edits
meant by commands: values of entries are those given by commands, all other values are those stated by the lines; if nothing is saved then
nothing is changed.

What is missing: lines with repetitions (see `C72_section_stays`, `C72_value_is_lost`), comments after headers and after empty values
(see `C78_header_comment`, `C79_next_line_is_value`). -/
theorem C79_edit_partial {re : List Nat → Option Matcher} {lexers : List Lexer} (hl : LexersOf re tokens lexers) (hs : SameMatchers re)
    {trim : Bytes → Bytes} (ht : Trims trim) (valid : List Nat → Bool) (upper : List Nat → List Nat) (name : String) (flags : List (Flag × List Nat))
    (hacc : ∀ c ∈ commandsOf flags, Accepted valid c) {file : Option (List Nat)} (hlen : (file.getD []).length ≤ 1048576) {lines : List Line}
    (hf : FileText lines (readable (file.getD []))) (hd : ((entriesOf id [] lines).map fun x => (x.1, x.2.1)).Nodup) (hsep : (sectionsOf lines).Nodup)
    {es : List Edit} (hes : (Commands.of (commandsOf flags)).Mean trim es) :
    ∃ d : Doc, d.text = readable (file.getD []) ∧ d.Good ∧ (∀ trim, d.entries trim = entriesOf trim [] lines) ∧ d.filterMap Item.name = sectionsOf lines ∧
      ((∃ es₁ x es₂ d₁, es = es₁ ++ x :: es₂ ∧ Edits trim d es₁ d₁ ∧ x.Breaks d₁ ∧
        ∃ N, ∀ k, N ≤ k → editFile valid trim upper lexers k name flags file = .panic) ∨
      ∃ c d', (∃ N, ∀ k, N ≤ k → editFile valid trim upper lexers k name flags file = .done (.edited c d'.text)) ∧ Edits trim d es d' ∧
        (∀ s e, d'.lookup trim s e = es.foldl (fun f x => x.apply trim f) (statedBy trim lines) s e) ∧ (¬ c.Updated → d'.text = readable (file.getD [])) ∧
        d'.Good ∧ d'.Distinct ∧ d'.Separate) := by
  obtain ⟨N, m, F, root, d, h1, h2, h3, h4, h5, h6, h7⟩ := C79_lines_are_read hl hs upper name hf
  exact ⟨d, h5, h4, h6, h7, read_edit ht valid upper name flags hacc hlen hd hsep hes h1 h2 h3 h4 h5 h6 h7⟩

/-! Samples -/

/-- A name of one letter. -/
theorem one_letter (c : Nat) (h : isLetter c = true) : Word [c] := ⟨c, [], rfl, letter_iff.1 h, by simp⟩

/-- Lines of a sample: a comment, an entry with a comment, a section, an entry without a value. -/
theorem sample_lines : FileText [.comment, .entry (confBytes "a") (confBytes "1 "), .blank, .header (confBytes "s.t"), .entry (confBytes "b-c") []]
    (confBytes " # x\n\ta = 1 # y\n\n[ s.t ]\nb-c=\n") := by
  have h1 : LineText .comment (confBytes " # x\n") := .comment (a := [32]) (by simp [Spaces]) ⟨confBytes " x", by decide, rfl⟩
  have h2 : LineText (.entry (confBytes "a") (confBytes "1 ")) (confBytes "\ta = 1 # y\n") :=
    .entry (a := [9]) (b := [32]) (d := [32]) (e := confBytes "# y\n") (by simp [Spaces]) (.word (one_letter 97 rfl)) (by simp [Spaces]) (by simp [Spaces])
      ⟨49, [32], rfl, by decide, by decide⟩ (.inr ⟨confBytes " y", by decide, rfl⟩)
  have h3 : LineText .blank (confBytes "\n") := .blank (a := []) (by simp [Spaces])
  have h4 : LineText (.header (confBytes "s.t")) (confBytes "[ s.t ]\n") :=
    .header (a := []) (b := [32]) (d := [32]) (e := []) (by simp [Spaces]) (by simp [Spaces])
      (.join (w := confBytes "s") (one_letter 115 rfl) (by decide) (.word (one_letter 116 rfl))) (by simp [Spaces]) (by simp [Spaces])
  have h5 : LineText (.entry (confBytes "b-c") []) (confBytes "b-c=\n") :=
    .unset (a := []) (b := []) (d := []) (by simp [Spaces])
      (.join (w := confBytes "b") (one_letter 98 rfl) (by decide) (.word (one_letter 99 rfl))) (by simp [Spaces]) (by simp [Spaces])
  exact .cons h1 (.cons h2 (.cons h3 (.cons h4 (.cons h5 .nil))))

/-- The hypotheses of `C79_lines_are_read` and of `C79_edit_partial` hold, and this is what the lines state. -/
example : LexersOf confRe tokens confLexers ∧ SameMatchers confRe ∧ Trims trimBlank ∧
    readable (confBytes " # x\n\ta = 1 # y\r\n\n[ s.t ]\nb-c=") = confBytes " # x\n\ta = 1 # y\n\n[ s.t ]\nb-c=\n" ∧
    entriesOf trimBlank [] [.comment, .entry (confBytes "a") (confBytes "1 "), .blank, .header (confBytes "s.t"), .entry (confBytes "b-c") []] =
      [([], confBytes "a", confBytes "1"), (confBytes "s.t", confBytes "b-c", [])] ∧
    sectionsOf [.comment, .entry (confBytes "a") (confBytes "1 "), .blank, .header (confBytes "s.t"), .entry (confBytes "b-c") []] = [[], confBytes "s.t"] :=
  ⟨confLexers_of, fun _ _ _ _ => rfl, trimBlank_trims, by decide +kernel, by decide +kernel, by decide +kernel⟩

/-- C79: if there is a comment instead of a value then the next line becomes the value, and it is lost with the entry: `-c a` and `-s a=2`. -/
theorem C79_next_line_is_value : saved [(.c, "a")] "a=#c\nb=1\n" = some [] ∧ saved [(.s, "a=2")] "a=#c\nb=1\n" = some (confBytes "a=#c\n2\n") := by
  decide +kernel

end Verif.Props.Conf
