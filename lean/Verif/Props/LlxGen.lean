/-
C47, C58: Go source made by llxgen.
-/
import Verif.Proof.LlxGen
import Verif.Props.LangParse

namespace Verif.Props

open Verif Verif.Model Verif.Model.LangDef Verif.Model.LlxGen Verif.Spec Verif.Spec.LangDef Verif.Spec.GoText Verif.Proof Verif.Proof.LlxGen

/-- Names and expressions are bytes, names of nodes are ASCII texts without line feeds. -/
structure Writable (p : Parsed) : Prop where
  tokens : ∀ t ∈ p.grammar.tokens, (∀ b ∈ t.name, b < 256) ∧ ∀ b ∈ t.re.getD [], b < 256
  names : ∀ n ∈ p.names, ∀ b ∈ n, b < 128 ∧ b ≠ 10

/-- Braces are properly nested; `n` braces are open. -/
def nested : List Tok → Nat → Bool
  | [], n => n == 0
  | .op 123 :: t, n => nested t (n + 1)
  | .op 125 :: _, 0 => false
  | .op 125 :: t, n + 1 => nested t n
  | _ :: t, n => nested t n

theorem go_text {isPrint : Nat → Bool} (hp : Sane isPrint) {pkg var : List Nat} {p : Parsed} {text : List Nat} (hw : Writable p)
    (hl : p.layers = []) (np : isName pkg = true) (nv : isName var = true) (hg : GoodNames pkg var)
    (h : goText isPrint pkg var p = some text) : ∃ ts, lex text = some ts ∧ IsFile pkg var (grammarExpr p) ts := by
  unfold goText at h
  dsimp only at h
  rw [Option.bind_eq_some_iff] at h
  obtain ⟨states, h1, h⟩ := h
  rw [Option.bind_eq_some_iff] at h
  obtain ⟨multi, h2, h⟩ := h
  rw [Option.map_eq_some_iff] at h
  obtain ⟨rules, h3, rfl⟩ := h
  have hn : ∀ n ∈ p.names.zip p.grammar.firsts, ∀ b ∈ n.1, b < 128 ∧ b ≠ 10 := fun n hn => hw.names _ (List.of_mem_zip hn).1
  obtain ⟨ts1, a1, b1⟩ := tokens_field hp hw.tokens
  obtain ⟨ts2, a2, b2⟩ := nodes_field (ns := p.names.zip p.grammar.firsts) hp fun n hn' b hb => by have := hn n hn' b hb; omega
  obtain ⟨us, c1, c2⟩ := states_items (fun n hn' hm => (hn n hn' 10 hm).2 rfl) _ _ _ _ _ h1
  obtain ⟨ts3, a3, b3⟩ := field_intro (head := bytesOf "\tStates: []grammar.State{\n") (tail := bytesOf "\t},\n") (name := "States") (type := "State")
    (by decide +kernel) c1 c2 (by decide +kernel)
  obtain ⟨ts4, a4, b4⟩ := block_field (name := "MultiRules") (type := "MultiRule") multi_entry h2 (by decide +kernel)
  obtain ⟨ts5, a5, b5⟩ := block_field (name := "Rules") (type := "Rule") rule_entry h3 (by decide +kernel)
  have a0 := reads_head np nv hg.keywords.1 hg.keywords.2
  have a6 : Reads (.start false) (bytesOf "}\n") [.op 125, .semi] (.start false) := by decide +kernel
  have ha := (((((a0.append a1).append a2).append a3).append a4).append a5).append a6
  have hi : IsItems [(some (bytesOf "Tokens"), sliceOf "Token" (p.grammar.tokens.map tokenExpr)),
      (some (bytesOf "Nodes"), sliceOf "Node" ((p.names.zip p.grammar.firsts).map fun n => struct [("Name", .str n.1), ("FirstState", .int n.2)])),
      (some (bytesOf "States"), sliceOf "State" (p.grammar.tables.states.map stateExpr)),
      (some (bytesOf "MultiRules"), sliceOf "MultiRule" (p.grammar.tables.multi.map fun m => tuple [m.token, m.lowRule, m.highRule])),
      (some (bytesOf "Rules"), sliceOf "Rule" (p.grammar.tables.rules.map fun r => tuple [r.token, r.state, r.node]))] _ :=
    .cons b1 (.cons b2 (.cons b3 (.cons b4 (.cons b5 .nil))))
  have he : grammarExpr p = .lit (some (.qualified (bytesOf "grammar") (bytesOf "Grammar")))
      [(some (bytesOf "Tokens"), sliceOf "Token" (p.grammar.tokens.map tokenExpr)),
      (some (bytesOf "Nodes"), sliceOf "Node" ((p.names.zip p.grammar.firsts).map fun n => struct [("Name", .str n.1), ("FirstState", .int n.2)])),
      (some (bytesOf "States"), sliceOf "State" (p.grammar.tables.states.map stateExpr)),
      (some (bytesOf "MultiRules"), sliceOf "MultiRule" (p.grammar.tables.multi.map fun m => tuple [m.token, m.lowRule, m.highRule])),
      (some (bytesOf "Rules"), sliceOf "Rule" (p.grammar.tables.rules.map fun r => tuple [r.token, r.state, r.node]))] := by
    unfold grammarExpr
    rw [if_pos hl]
    rfl
  have hx := IsExpr.lit (t := some (.qualified (bytesOf "grammar") (bytesOf "Grammar"))) hi
  rw [← he] at hx
  refine ⟨_, ?_, ⟨hg, ⟨_, hx, rfl⟩⟩⟩
  · unfold lex
    unfold headText headToks at ha
    simp only [hl, layersText, List.length_nil, ne_eq, not_true_eq_false, if_false, List.append_assoc, List.nil_append, List.append_nil,
      List.cons_append] at ha ⊢
    rw [ha]
    simp only [Option.bind_some]

theorem makeGo_ok {isPrint : Nat → Bool} {dir pkg var text : List Nat} {p : Parsed} (h : makeGo isPrint dir pkg var p = some (.ok text)) :
    ∃ var', (if var = [] then p.names[0]? else some var) = some var' ∧ isName (if pkg = [] then dir else pkg) = true ∧ isName var' = true ∧
      goText isPrint (if pkg = [] then dir else pkg) var' p = some text := by
  unfold makeGo at h
  dsimp only at h
  rw [Option.bind_eq_some_iff] at h
  obtain ⟨var', hv, h⟩ := h
  refine ⟨var', hv, ?_⟩
  generalize (if pkg = [] then dir else pkg) = pkg' at *
  by_cases h1 : isName pkg' = true
  · rw [if_neg (by simp [h1])] at h
    by_cases h2 : isName var' = true
    · rw [if_neg (by simp [h2]), Option.map_eq_some_iff] at h
      obtain ⟨text', h3, h4⟩ := h
      cases h4
      exact ⟨h1, h2, h3⟩
    · rw [if_pos (by simp [h2])] at h
      cases h
  · rw [if_pos (by simp [h1])] at h
    cases h

/-- C58: if there are no layers then the file made by llxgen is a Go file in UTF-8 declaring a variable with the same grammar. What is
missing: grammars with layers, names that are not allowed in Go. -/
theorem C58_go_file_partial {isPrint : Nat → Bool} (hp : Sane isPrint) {dir pkg var text : List Nat} {p : Parsed} (hw : Writable p)
    (hl : p.layers = []) (h : makeGo isPrint dir pkg var p = some (.ok text)) :
    IsUtf8 text ∧ ∃ pkg' var', pkg' = (if pkg = [] then dir else pkg) ∧ (if var = [] then p.names[0]? else some var) = some var' ∧
      (GoodNames pkg' var' → ∃ ts, lex text = some ts ∧ IsFile pkg' var' (grammarExpr p) ts) := by
  obtain ⟨var', hv, h1, h2, h3⟩ := makeGo_ok h
  refine ⟨?_, _, var', rfl, hv, fun hg => go_text hp hw hl h1 h2 hg h3⟩
  generalize (if pkg = [] then dir else pkg) = pkg' at *
  unfold goText at h3
  dsimp only at h3
  rw [Option.bind_eq_some_iff] at h3
  obtain ⟨states, h4, h3⟩ := h3
  rw [Option.bind_eq_some_iff] at h3
  obtain ⟨multi, h5, h3⟩ := h3
  rw [Option.map_eq_some_iff] at h3
  obtain ⟨rules, h6, rfl⟩ := h3
  have u1 := utf8_states (fun n hn => utf8_ascii fun b hb => (hw.names _ (List.of_mem_zip hn).1 b hb).1) _ _ _ _ _ h4
  have u2 := utf8_block (by decide +kernel) (fun r => by unfold multiText; utf8_parts) h5
  have u3 := utf8_block (by decide +kernel) (fun r => by unfold ruleText; utf8_parts) h6
  have u4 := utf8_ascii (name_ascii h1)
  have u5 := utf8_ascii (name_ascii h2)
  have u6 : IsUtf8 (p.grammar.tokens.flatMap (tokenText (quote isPrint))) := utf8_flatMap fun t _ => by unfold tokenText; utf8_parts
  have u7 : IsUtf8 ((p.names.zip p.grammar.firsts).flatMap (nodeText (quote isPrint))) := utf8_flatMap fun t _ => by unfold nodeText; utf8_parts
  have u8 : IsUtf8 (layersText (quote isPrint) p.layers) := by rw [hl]; exact utf8_ascii (by simp [layersText])
  utf8_parts

/-- C58: the file is always made if there is a node, and first multi rules of states are in range. -/
theorem C58_made {isPrint : Nat → Bool} {dir pkg var : List Nat} {p : Parsed} (hn : p.names.zip p.grammar.firsts ≠ []) (hm : MultiIn p.grammar.tables) :
    ∃ r, makeGo isPrint dir pkg var p = some r := by
  have hlen : 0 < (p.names.zip p.grammar.firsts).length := List.length_pos_iff.2 hn
  obtain ⟨var', hv⟩ : ∃ var', (if var = [] then p.names[0]? else some var) = some var' := by
    split
    · rw [List.length_zip] at hlen
      exact ⟨_, List.getElem?_eq_getElem (by omega)⟩
    · exact ⟨_, rfl⟩
  unfold makeGo
  dsimp only
  rw [hv, Option.bind_some]
  obtain ⟨states, h1⟩ := states_some (nodes := p.names.zip p.grammar.firsts) p.grammar.tables.states 0 0 0 (.inl hlen)
  obtain ⟨multi, h2⟩ := block_some (head := "\tMultiRules: []grammar.MultiRule{") (text := multiText)
    (find := fun s => some (findMultiState p.grammar.tables.states s)) (fun _ => rfl) p.grammar.tables.multi
  obtain ⟨rules, h3⟩ := block_some (head := "\tRules: []grammar.Rule{") (text := ruleText) (find_some hm) p.grammar.tables.rules
  have hg : ∃ text, goText isPrint (if pkg = [] then dir else pkg) var' p = some text := by
    unfold goText
    dsimp only
    rw [h1, Option.bind_some, h2, Option.bind_some, h3]
    exact ⟨_, rfl⟩
  obtain ⟨text, hg⟩ := hg
  rw [hg]
  generalize (if pkg = [] then dir else pkg) = pkg' at *
  by_cases h1 : ¬ isName pkg' = true
  · rw [if_pos h1]
    exact ⟨_, rfl⟩
  · rw [if_neg h1]
    by_cases h2 : ¬ isName var' = true
    · rw [if_pos h2]
      exact ⟨_, rfl⟩
    · rw [if_neg h2]
      exact ⟨_, rfl⟩

/-- Compiled grammars have multi rules in range. -/
theorem compiled_multi {upper : List Nat → List Nat} {find : Nat → List Nat → List Nat} {ts : List GToken} {defs : List (Option Chunk)}
    {order1 order2 order3 : List Nat} {fuel : Nat} {g : Grammar} (h : compile upper find ts defs order1 order2 order3 fuel = .done (.ok g)) :
    MultiIn g.tables := by
  unfold compile at h
  split at h
  · cases h
  split at h
  · cases h
  dsimp only at h
  obtain ⟨un, -, h⟩ := bindRun_done.1 h
  split at h
  · cases h
  obtain ⟨r, -, h⟩ := bindRun_done.1 h
  split at h
  · cases h
  obtain ⟨b, -, h⟩ := orPanic_done.1 h
  obtain ⟨rc, -, h⟩ := bindRun_done.1 h
  split at h
  · cases h
  obtain ⟨pr, -, h⟩ := orPanic_done.1 h
  obtain ⟨x, hx, h⟩ := orPanic_done.1 h
  cases h
  unfold PR.buildGrammar at hx
  dsimp only at hx
  rw [Option.map_eq_some_iff] at hx
  obtain ⟨t, ht, rfl⟩ := hx
  exact buildTables_multi _ _ _ _ (by intro st hst; cases hst) ht

/-- Each node has a first state. -/
theorem compiled_firsts {upper : List Nat → List Nat} {find : Nat → List Nat → List Nat} {ts : List GToken} {bodies : List Chunk}
    {order1 order2 order3 : List Nat} {fuel : Nat} {g : Grammar}
    (h : compile upper find ts (bodies.map some) order1 order2 order3 fuel = .done (.ok g)) (hwf : ∀ c ∈ bodies, Ebnf.WF c) :
    g.firsts.length = bodies.length := by
  obtain ⟨ttypes, ft, pr, fs, pr', -, -, -, -, hb, -, -, hg, -⟩ := compile_steps h
  have hid : (bodies.map some).filterMap id = bodies := by simp
  rw [hid] at hb
  obtain ⟨pr2, fs2, hb2, -, hl, -⟩ := buildNodes_spec ft bodies hwf ok_empty
  rw [hb] at hb2
  cases hb2
  unfold PR.buildGrammar at hg
  dsimp only at hg
  rw [Option.map_eq_some_iff] at hg
  obtain ⟨t, -, ht⟩ := hg
  rw [show g.firsts = (pr'.dropUnused fs).2 from (congrArg Prod.snd ht).symm, dropUnused_firsts, List.length_map, hl]

/-- C58: grammars made from descriptions always get a file or a message about names. -/
theorem C58_described {upper : List Nat → List Nat} {find : List Nat → List Nat → List Nat} {okRe : List Nat → Bool}
    {order1 order2 order3 : List Nat} {fuel : Nat} {inp : List (Except LErr LTok)} {head : List HeadItem} {body : List BodyItem} {p : Parsed}
    (h : MadeFrom upper find okRe order1 order2 order3 fuel inp head body p) (isPrint : Nat → Bool) (dir pkg var : List Nat) :
    ∃ r, makeGo isPrint dir pkg var p = some r := by
  obtain ⟨D, bodies, -, -, hn, -, hd, -, hc⟩ := C56_content_partial h
  refine C58_made ?_ (compiled_multi hc.ok)
  have h1 := compiled_firsts hc.ok fun c hc' => (hc.wf c hc').1
  have h2 := hd.count
  obtain ⟨_, _, n, es, rest, -, -, -, rfl⟩ := h.text
  have h3 : n ∈ nodeList (.node n es :: rest) := by
    unfold nodeList
    rw [List.flatMap_cons, BodyItem.names, List.cons_append, enlist]
    exact (Verif.Proof.LangDef.enlist_prefix _ _).subset (by simp)
  rw [← List.length_pos_iff, List.length_zip, hn]
  have := List.length_pos_of_mem h3
  omega

/-! Different grammars have different values -/

theorem bit_inj {n m : Nat} {b c : Bool} (h : 2 * n + b.toNat = 2 * m + c.toNat) : n = m ∧ b = c := by
  cases b <;> cases c <;> simp at h ⊢ <;> omega

theorem flagBits_inj {f g : TokenFlags} (h : flagBits f = flagBits g) : f = g := by
  unfold flagBits at h
  simp only [List.foldr_cons, List.foldr_nil] at h
  obtain ⟨h, h1⟩ := bit_inj h
  obtain ⟨h, h2⟩ := bit_inj h
  obtain ⟨h, h3⟩ := bit_inj h
  obtain ⟨h, h4⟩ := bit_inj h
  obtain ⟨h, h5⟩ := bit_inj h
  obtain ⟨h, h6⟩ := bit_inj h
  obtain ⟨h, h7⟩ := bit_inj h
  obtain ⟨a, b, c, d, e, i, j⟩ := f
  simp only at h1 h2 h3 h4 h5 h6 h7
  rw [h1, h2, h3, h4, h5, h6, h7]

theorem sliceOf_inj {type type' : String} {xs ys : List GoExpr} (h : sliceOf type xs = sliceOf type' ys) : xs = ys := by
  unfold sliceOf at h
  injection h with h1 h2
  exact List.map_injective_iff.2 (fun a b hab => by simpa using hab) h2

/-- C58: values of grammars that differ in tokens, layers, nodes or tables are different. Empty expressions and absent ones are the same. -/
theorem C58_faithful {p q : Parsed} (h : grammarExpr p = grammarExpr q) :
    p.layers = q.layers ∧ p.names.zip p.grammar.firsts = q.names.zip q.grammar.firsts ∧ p.grammar.tables = q.grammar.tables ∧
      p.grammar.tokens.map (fun t => (t.name, t.re.getD [], t.group, t.flags)) =
      q.grammar.tokens.map (fun t => (t.name, t.re.getD [], t.group, t.flags)) := by
  unfold grammarExpr at h
  injection h with h1 h
  simp only [List.cons_append, List.nil_append, List.cons.injEq, Prod.mk.injEq, true_and] at h
  obtain ⟨ht, h⟩ := h
  have hl : p.layers = q.layers ∧ [(some (bytesOf "Nodes"), sliceOf "Node" ((p.names.zip p.grammar.firsts).map fun n => struct [("Name", .str n.1), ("FirstState", .int n.2)])),
    (some (bytesOf "States"), sliceOf "State" (p.grammar.tables.states.map fun s =>
      tuple [s.types.toNat, s.lowMulti, s.highMulti, s.lowRule, s.highRule])),
    (some (bytesOf "MultiRules"), sliceOf "MultiRule" (p.grammar.tables.multi.map fun m => tuple [m.token, m.lowRule, m.highRule])),
    (some (bytesOf "Rules"), sliceOf "Rule" (p.grammar.tables.rules.map fun r => tuple [r.token, r.state, r.node]))] =
    [(some (bytesOf "Nodes"), sliceOf "Node" ((q.names.zip q.grammar.firsts).map fun n => struct [("Name", .str n.1), ("FirstState", .int n.2)])),
    (some (bytesOf "States"), sliceOf "State" (q.grammar.tables.states.map fun s =>
      tuple [s.types.toNat, s.lowMulti, s.highMulti, s.lowRule, s.highRule])),
    (some (bytesOf "MultiRules"), sliceOf "MultiRule" (q.grammar.tables.multi.map fun m => tuple [m.token, m.lowRule, m.highRule])),
    (some (bytesOf "Rules"), sliceOf "Rule" (q.grammar.tables.rules.map fun r => tuple [r.token, r.state, r.node]))] := by
    by_cases hp : p.layers = []
    · by_cases hq : q.layers = []
      · rw [if_pos hp, if_pos hq, List.nil_append, List.nil_append] at h
        exact ⟨hp.trans hq.symm, h⟩
      · rw [if_pos hp, if_neg hq] at h
        have := congrArg List.length h
        simp at this
    · by_cases hq : q.layers = []
      · rw [if_neg hp, if_pos hq] at h
        have := congrArg List.length h
        simp at this
      · rw [if_neg hp, if_neg hq] at h
        rw [List.cons_append, List.cons_append, List.nil_append, List.nil_append, List.cons.injEq] at h
        refine ⟨?_, h.2⟩
        have := sliceOf_inj (congrArg Prod.snd h.1)
        refine List.map_injective_iff.2 (fun a b hab => ?_) this
        obtain ⟨ta, ca⟩ := a
        obtain ⟨tb, cb⟩ := b
        unfold layerExpr struct at hab
        injection hab with _ hab
        simp only [List.map_cons, List.cons.injEq, Prod.mk.injEq, GoExpr.str.injEq, true_and] at hab
        obtain ⟨rfl, hc⟩ := hab
        have : ca = cb := by
          by_cases h1 : ca = []
          · by_cases h2 : cb = []
            · rw [h1, h2]
            · rw [if_pos h1, if_neg h2] at hc
              simp at hc
          · by_cases h2 : cb = []
            · rw [if_neg h1, if_pos h2] at hc
              simp at hc
            · rw [if_neg h1, if_neg h2] at hc
              simp only [List.map_cons, List.map_nil, List.cons.injEq, Prod.mk.injEq, true_and, and_true] at hc
              refine List.map_injective_iff.2 (fun a b hab => ?_) (sliceOf_inj hc)
              obtain ⟨na, aa⟩ := a
              obtain ⟨nb, ab⟩ := b
              unfold commandExpr struct at hab
              injection hab with _ hab
              simp only [List.map_cons, List.cons.injEq, Prod.mk.injEq, GoExpr.str.injEq, true_and] at hab
              obtain ⟨rfl, hc⟩ := hab
              have : aa = ab := by
                by_cases h1 : aa = []
                · by_cases h2 : ab = []
                  · rw [h1, h2]
                  · rw [if_pos h1, if_neg h2] at hc
                    simp at hc
                · by_cases h2 : ab = []
                  · rw [if_neg h1, if_pos h2] at hc
                    simp at hc
                  · rw [if_neg h1, if_neg h2] at hc
                    simp only [List.map_cons, List.map_nil, List.cons.injEq, Prod.mk.injEq, true_and, and_true, GoExpr.lit.injEq] at hc
                    exact List.map_injective_iff.2 (fun a b hab => by simpa using hab) hc
              rw [this]
        rw [this]
  obtain ⟨hl, h⟩ := hl
  simp only [List.cons.injEq, Prod.mk.injEq, true_and, and_true] at h
  obtain ⟨hn, hs, hm, hr⟩ := h
  refine ⟨hl, ?_, ?_, ?_⟩
  · refine List.map_injective_iff.2 (fun a b hab => ?_) (sliceOf_inj hn)
    unfold struct at hab
    injection hab with _ hab
    simp at hab
    exact Prod.ext hab.1 hab.2
  · have e1 : p.grammar.tables.states = q.grammar.tables.states := by
      refine List.map_injective_iff.2 (fun a b hab => ?_) (sliceOf_inj hs)
      unfold tuple at hab
      injection hab with _ hab
      simp at hab
      obtain ⟨a1, a2, a3, a4, a5⟩ := a
      obtain ⟨b1, b2, b3, b4, b5⟩ := b
      simp only at hab
      obtain ⟨h1, rfl, rfl, rfl, rfl⟩ := hab
      rw [BitVec.eq_of_toNat_eq (x := a1) (y := b1) (by omega)]
    have e2 : p.grammar.tables.multi = q.grammar.tables.multi := by
      refine List.map_injective_iff.2 (fun a b hab => ?_) (sliceOf_inj hm)
      unfold tuple at hab
      injection hab with _ hab
      simp at hab
      obtain ⟨a1, a2, a3⟩ := a
      obtain ⟨b1, b2, b3⟩ := b
      simp only at hab
      obtain ⟨rfl, rfl, rfl⟩ := hab
      rfl
    have e3 : p.grammar.tables.rules = q.grammar.tables.rules := by
      refine List.map_injective_iff.2 (fun a b hab => ?_) (sliceOf_inj hr)
      unfold tuple at hab
      injection hab with _ hab
      simp at hab
      obtain ⟨a1, a2, a3⟩ := a
      obtain ⟨b1, b2, b3⟩ := b
      simp only at hab
      obtain ⟨rfl, rfl, rfl⟩ := hab
      rfl
    obtain ⟨⟨_, _, ⟨s1, s2, s3⟩⟩, _, _⟩ := p
    obtain ⟨⟨_, _, ⟨r1, r2, r3⟩⟩, _, _⟩ := q
    simp only at e1 e2 e3 ⊢
    rw [e1, e2, e3]
  · have ht := sliceOf_inj ht
    have hf : ∀ l : List GToken, l.map tokenExpr = (l.map fun t => (t.name, t.re.getD [], t.group, t.flags)).map fun x =>
        struct [("Name", .str x.1), ("Re", .str x.2.1), ("Group", .int x.2.2.1), ("Flags", .int (flagBits x.2.2.2))] := by
      intro l
      rw [List.map_map]
      rfl
    rw [hf, hf] at ht
    refine List.map_injective_iff.2 (fun a b hab => ?_) ht
    obtain ⟨a1, a2, a3, a4⟩ := a
    obtain ⟨b1, b2, b3, b4⟩ := b
    unfold struct at hab
    injection hab with _ hab
    simp at hab
    obtain ⟨rfl, rfl, rfl, h4⟩ := hab
    rw [flagBits_inj (f := a4) (g := b4) (by omega)]

/-- C58: files of different grammars are different: the text gives the names, tokens, nodes and tables. What is missing: see
`C58_go_file_partial`. -/
theorem C58_text_determines_partial {isPrint : Nat → Bool} (hp : Sane isPrint) {pkg pkg' var var' text : List Nat} {p q : Parsed}
    (np : var ≠ []) (nq : var' ≠ []) (wp : Writable p) (wq : Writable q) (lp : p.layers = []) (lq : q.layers = []) (gp : GoodNames pkg var) (gq : GoodNames pkg' var')
    (hp' : makeGo isPrint [] pkg var p = some (.ok text)) (hq' : makeGo isPrint [] pkg' var' q = some (.ok text)) :
    pkg = pkg' ∧ var = var' ∧ p.names.zip p.grammar.firsts = q.names.zip q.grammar.firsts ∧ p.grammar.tables = q.grammar.tables ∧
      p.grammar.tokens.map (fun t => (t.name, t.re.getD [], t.group, t.flags)) =
      q.grammar.tokens.map (fun t => (t.name, t.re.getD [], t.group, t.flags)) := by
  have key : ∀ {pkg var : List Nat} {p : Parsed}, var ≠ [] → GoodNames pkg var → Writable p → p.layers = [] → makeGo isPrint [] pkg var p = some (.ok text) →
      ∃ ts, lex text = some ts ∧ IsFile pkg var (grammarExpr p) ts := by
    intro pkg var p e2 hg hw hl h
    obtain ⟨v, hv, h1, h2, h3⟩ := makeGo_ok h
    have e1 : pkg ≠ [] := by rintro rfl; simp [isName] at h1
    rw [if_neg e1] at h1 h3
    rw [if_neg e2] at hv
    cases hv
    exact go_text hp hw hl h1 h2 hg h3
  obtain ⟨ts, h1, h2⟩ := key np gp wp lp hp'
  obtain ⟨ts', h3, h4⟩ := key nq gq wq lq hq'
  rw [h1] at h3
  cases h3
  obtain ⟨rfl, rfl, he⟩ := file_det h2 h4
  obtain ⟨-, h5, h6, h7⟩ := C58_faithful he
  exact ⟨rfl, rfl, h5, h6, h7⟩

/-! Braces -/

theorem type_nested (t : GoType) : ∀ rest n, nested (t.toks ++ rest) n = nested rest n := by
  induction t with
  | name x => intro rest n; simp [GoType.toks, ident, nested]
  | qualified x y => intro rest n; simp [GoType.toks, ident, nested]
  | slice t ih =>
    intro rest n
    rw [GoType.toks, List.append_assoc, List.cons_append, List.cons_append, List.nil_append]
    simp [nested, ih]

theorem typeToks_nested (t : Option GoType) (rest : List Tok) (n : Nat) : nested (typeToks t ++ rest) n = nested rest n := by
  cases t with
  | none => rfl
  | some t => exact type_nested t rest n

theorem keyToks_nested (k : Option (List Nat)) (rest : List Tok) (n : Nat) : nested (keyToks k ++ rest) n = nested rest n := by
  cases k with
  | none => rfl
  | some k => simp [keyToks, ident, nested]

mutual

theorem expr_nested {e : GoExpr} {us : List Tok} : IsExpr e us → ∀ rest n, nested (us ++ rest) n = nested rest n
  | .str s => fun rest n => by simp [nested]
  | .nat k => fun rest n => by simp [nested]
  | .neg k => fun rest n => by simp [nested]
  | .lit (t := t) h => fun rest n => by
    have hi := items_nested h
    rw [List.append_assoc, List.append_assoc, List.append_assoc, typeToks_nested, List.cons_append, List.nil_append, nested, hi,
      List.cons_append, List.nil_append, nested]

theorem items_nested {items : List (Option (List Nat) × GoExpr)} {us : List Tok} : IsItems items us →
    ∀ rest n, nested (us ++ rest) n = nested rest n
  | .nil => fun rest n => by simp
  | .last (k := k) h => fun rest n => by rw [List.append_assoc, keyToks_nested, expr_nested h]
  | .cons (k := k) h hi => fun rest n => by
    rw [List.append_assoc, List.append_assoc, List.append_assoc, keyToks_nested, expr_nested h, List.cons_append, List.nil_append]
    simp [nested, items_nested hi rest n]

end

/-- C47: if there are no layers then braces are properly nested. What is missing: layers. -/
theorem C47_nested_partial {isPrint : Nat → Bool} (hp : Sane isPrint) {dir pkg var text : List Nat} {p : Parsed} (hw : Writable p)
    (hl : p.layers = []) (h : makeGo isPrint dir pkg var p = some (.ok text))
    (hg : ∀ v, (if var = [] then p.names[0]? else some var) = some v → GoodNames (if pkg = [] then dir else pkg) v) :
    ∃ ts, lex text = some ts ∧ nested ts 0 = true := by
  obtain ⟨-, pkg', var', rfl, hv, hf⟩ := C58_go_file_partial hp hw hl h
  obtain ⟨ts, ht, -, us, hu, rfl⟩ := hf (hg _ hv)
  refine ⟨_, ht, ?_⟩
  have : nested (us ++ [.semi]) 0 = true := by rw [expr_nested hu]; rfl
  simpa [nested, ident] using this

/-- C58: if there are layers then the text is not a file with a declaration of a variable, whatever the value is. -/
theorem C58_layers_violated {isPrint : Nat → Bool} (hp : Sane isPrint) {dir pkg var text : List Nat} {p : Parsed} (hw : Writable p)
    (hl : p.layers ≠ []) (h : makeGo isPrint dir pkg var p = some (.ok text)) :
    ∃ pkg' var', pkg' = (if pkg = [] then dir else pkg) ∧ (if var = [] then p.names[0]? else some var) = some var' ∧
      ∀ e ts, lex text = some ts → ¬ IsFile pkg' var' e ts := by
  obtain ⟨var', hv, np, nv, h⟩ := makeGo_ok h
  refine ⟨_, var', rfl, hv, ?_⟩
  generalize (if pkg = [] then dir else pkg) = pkg' at *
  intro e ts hlex hfile
  have hg := hfile.1
  have hchain := file_chain hfile
  unfold goText at h
  dsimp only at h
  rw [Option.bind_eq_some_iff] at h
  obtain ⟨states, h1, h⟩ := h
  rw [Option.bind_eq_some_iff] at h
  obtain ⟨multi, h2, h⟩ := h
  rw [Option.map_eq_some_iff] at h
  obtain ⟨rules, h3, rfl⟩ := h
  obtain ⟨l, ls, hl⟩ := List.exists_cons_of_ne_nil hl
  obtain ⟨ts1, a1, b1⟩ := tokens_field hp hw.tokens
  have a0 := reads_head np nv hg.keywords.1 hg.keywords.2
  have a2 : Reads (.start false) (bytesOf "\tLayers: []grammar.Layer{\n}\t\t{") [ident (bytesOf "Layers"), .op 58, .op 91, .op 93,
    ident (bytesOf "grammar"), .op 46, ident (bytesOf "Layer"), .op 123, .op 125, .op 123] (.start false) := by decide +kernel
  have ha := (a0.append a1).append a2
  have hsplit : bytesOf "\t\t{Type: " = bytesOf "\t\t{" ++ bytesOf "Type: " := by decide +kernel
  have hsplit2 : bytesOf "\tLayers: []grammar.Layer{\n}\t\t{" = bytesOf "\tLayers: []grammar.Layer{\n}" ++ bytesOf "\t\t{" := by decide +kernel
  unfold headText at ha
  rw [hsplit2] at ha
  simp only [hl, layersText, List.length_cons, ne_eq, Nat.succ_ne_zero, not_false_eq_true, if_true, List.flatMap_cons, layerText, hsplit] at hlex
  have hpre := lex_prefix (b := _) ha (by
    simp only [List.append_assoc] at hlex ⊢
    exact hlex)
  obtain ⟨post, rfl⟩ := hpre
  have := (List.isChain_append.1 hchain).1
  have := (List.isChain_append.1 this).2.1
  simp [NotReopened, ident] at this

/-! Samples -/

/-- ASCII letters are printable. -/
def genPrint (r : Nat) : Bool := 32 ≤ r && r < 127

theorem genPrint_sane : Sane genPrint := fun r hr => by simp [genPrint]; omega

/-- A grammar of one node with quotes, line feeds and wrong UTF-8 in token names and expressions. -/
def genSample (name : String) (layers : List LayerDef) : Parsed where
  grammar := {
    tokens := [{ name := bytesOf "num", re := some (bytesOf "\"\\d\n" ++ [255]), group := 0, flags := { error := true } },
      { name := bytesOf "é", re := none, group := 1, flags := { literal := true, reserved := true } }]
    firsts := [0]
    tables := { states := [⟨3, 0, 1, 0, 1⟩, ⟨1, 0, 0, 1, 2⟩], multi := [⟨0, 1, 3⟩], rules := [⟨1, -1, 0⟩, ⟨0, 1, -1⟩] } }
  names := [bytesOf name]
  layers := layers

theorem genSample_writable (name : String) (hn : ∀ b ∈ bytesOf name, b < 128 ∧ b ≠ 10) (layers : List LayerDef) : Writable (genSample name layers) := by
  constructor
  · intro t ht
    simp only [genSample, List.mem_cons, List.not_mem_nil, or_false] at ht
    rcases ht with rfl | rfl <;> dsimp only <;> decide +kernel
  · intro n hn'
    simp only [genSample, List.mem_cons, List.not_mem_nil, or_false] at hn'
    rw [hn']
    exact hn

/-- The whole text. -/
theorem genSample_text : makeGo genPrint (bytesOf "dir") [] [] (genSample "root" []) = some (.ok (bytesOf "// Code generated with llxgen.

package dir

import \"github.com/ava12/llx/grammar\"

var root = &grammar.Grammar{
\tTokens: []grammar.Token{
\t\t{Name: \"num\", Re: \"\\\"\\\\d\\n\\xff\", Group: 0, Flags: 8},
\t\t{Name: \"\\u00e9\", Re: \"\", Group: 1, Flags: 33},
\t},
\tNodes: []grammar.Node{
\t\t{Name: \"root\", FirstState: 0},
\t},
\tStates: []grammar.State{
\t\t{3, 0, 1, 0, 1}, // root(0)
\t\t{1, 0, 0, 1, 2},
\t},
\tMultiRules: []grammar.MultiRule{
\t\t{0, 1, 3}, // 0(0)
\t},
\tRules: []grammar.Rule{
\t\t{1, -1, 0}, // 0(0)
\t\t{0, 1, -1}, // 1(1)
\t},
}
")) := by decide +kernel

/-- The premises hold for the sample: the text above is the declaration of a variable. -/
example : ∃ text ts, makeGo genPrint (bytesOf "dir") [] [] (genSample "root" []) = some (.ok text) ∧ lex text = some ts ∧
    IsFile (bytesOf "dir") (bytesOf "root") (grammarExpr (genSample "root" [])) ts ∧ nested ts 0 = true := by
  have hw := genSample_writable "root" (by decide +kernel) []
  have hg : GoodNames (bytesOf "dir") (bytesOf "root") := ⟨by decide +kernel, by decide +kernel, by decide +kernel, by decide +kernel, by decide +kernel⟩
  obtain ⟨-, _, _, rfl, hv, hf⟩ := C58_go_file_partial genPrint_sane hw rfl genSample_text
  cases hv
  obtain ⟨ts, h1, h2⟩ := hf hg
  obtain ⟨ts', h3, h4⟩ := C47_nested_partial genPrint_sane hw rfl genSample_text (by
    intro v hv
    cases hv
    exact hg)
  rw [h1] at h3
  cases h3
  exact ⟨_, ts, genSample_text, h1, h2, h4⟩

/-- Multi rules of the sample are in range. -/
example : (genSample "root" []).names.zip (genSample "root" []).grammar.firsts ≠ [] ∧ MultiIn (genSample "root" []).grammar.tables := by
  refine ⟨by simp [genSample], ?_⟩
  intro st hst
  simp only [genSample, List.mem_cons, List.not_mem_nil, or_false] at hst
  rcases hst with rfl | rfl <;> simp [genSample]

/-- A grammar made from a description. -/
example : ∃ p, MadeFrom id descFind (fun _ => true) [0] [0] [0] 100 descSample descHead descBody p ∧
    ∃ text, makeGo genPrint (bytesOf "dir") [] [] p = some (.ok text) := by
  have hr : (match langParse id descFind (fun _ => true) [0] [0] [0] 100 descSample with
    | .done (.ok p) => (match makeGo genPrint (bytesOf "dir") [] [] p with
      | some (.ok _) => true
      | _ => false)
    | _ => false) = true := by decide +kernel
  split at hr
  · next p hp =>
    refine ⟨p, ⟨hp, descSample_plain, descSample_description, List.Perm.refl _, List.Perm.refl _, List.Perm.refl _⟩, ?_⟩
    split at hr
    · next text ht => exact ⟨text, ht⟩
    · cases hr
  · cases hr

/-! Violations -/

/-- A layer without commands. -/
def genLayer : List LayerDef := [⟨bytesOf "skip", []⟩]

/-- C47: braces are not nested if there is a layer. -/
theorem C47_violated : ∃ text ts, makeGo genPrint (bytesOf "dir") [] [] (genSample "root" genLayer) = some (.ok text) ∧ lex text = some ts ∧
    nested ts 0 = false := by
  have h : (match makeGo genPrint (bytesOf "dir") [] [] (genSample "root" genLayer) with
    | some (.ok text) => (match lex text with
      | some ts => nested ts 0 == false
      | none => false)
    | _ => false) = true := by decide +kernel
  split at h
  · next text ht =>
    split at h
    · next ts hts => exact ⟨text, ts, ht, hts, by simpa using h⟩
    · cases h
  · cases h

/-- The premises of `C58_layers_violated` hold for the sample with a layer. -/
example : Writable (genSample "root" genLayer) ∧ (genSample "root" genLayer).layers ≠ [] :=
  ⟨genSample_writable "root" (by decide +kernel) _, by simp [genSample, genLayer]⟩

/-- C58: names of nodes are used as names of variables even if these are keywords. -/
theorem C58_names_violated : ∃ text, makeGo genPrint (bytesOf "dir") [] [] (genSample "type" []) = some (.ok text) ∧
    ¬ GoodNames (bytesOf "dir") (bytesOf "type") := by
  have h : (match makeGo genPrint (bytesOf "dir") [] [] (genSample "type" []) with
    | some (.ok _) => true
    | _ => false) = true := by decide +kernel
  split at h
  · next text ht => exact ⟨text, ht, fun hg => hg.keywords.2 (by decide +kernel)⟩
  · cases h

/-- C58: the message about a wrong variable name shows the name of the package. -/
theorem C58_message_violated : makeGo genPrint [] (bytesOf "pkg") [] (genSample "a-b" []) = some (.error (.varName (bytesOf "pkg"))) := by
  decide +kernel

end Verif.Props
