/-
C65 for several groups of token types: what is cut from a text depends on requested types.
-/
import Verif.Proof.ScanGroups
import Verif.Props.TextIff

namespace Verif.Props

open Verif.Model Verif.Spec Verif.Spec.Ebnf Verif.Proof

variable {σ η : Type}

/-- Matches of expressions are whole for `find`, which is used to check literals. -/
def WholeMatches (re : List Nat → Option Matcher) (find : Nat → List Nat → List Nat) (ts : List GToken) : Prop :=
  ∀ (j : Nat) (t : GToken) r m text n, ts[j]? = some t → t.re = some r → re r = some m → m text = some n → find j (text.take n) = text.take n

theorem cuts_fetched {re : List Nat → Option Matcher} {find : Nat → List Nat → List Nat} {ts : List GToken} (hx : WholeMatches re find ts)
    {l l' : SrcList.State Src} {toks : List Token} (h : Cuts re ts l toks l') : ∀ t ∈ toks, t.type = eofTokenType ∨ Fetched find ts t := by
  induction h with
  | nil => simp
  | @tok src p k i n t rest l toks h1 h2 h3 h4 _ ih =>
    refine List.forall_mem_cons.mpr ⟨.inr ?_, ih⟩
    obtain ⟨-, ⟨t', r, m, h5, h6, h7, h8⟩, -⟩ := h2
    exact ⟨by simp, ⟨t', by simpa using h5, by simp [h6]⟩, hx i t' r m _ n h5 h6 h7 h8⟩
  | eof _ ih => exact List.forall_mem_cons.mpr ⟨.inl rfl, ih⟩

/-- C65, several groups, partial: let the grammar be compiled and one token be enough to choose a rule in it (`next` includes keys that may
come in states), let the parser have lexers of the grammar. If a text is cut into tokens as requested in states in which these tokens may
come, and the tokens are the leaves of a tree described by the grammar with no empty nested nodes, then the text is accepted and exactly that
tree is told to hooks. Nothing but side tokens is left unread; nothing at all if every state asks for some type and the root is never finished
by a token.
Missing: the same as in `C62_described_tree_is_told_partial`; that all accepted texts are such. -/
theorem C65_groups_partial {upper : List Nat → List Nat} {find : Nat → List Nat → List Nat} {ts a b c : List GToken}
    {bodies : List Chunk} {order1 order2 order3 : List Nat} {fuel : Nat} {g : Grammar}
    (h : Compiled upper find ts bodies order1 order2 order3 fuel g) (hloop : ∀ c ∈ bodies, LoopOk true c)
    (hsafe : SafeMachines bodies order2 order3 fuel) (hd : DistinctLiterals g)
    (hlay : Layout ts a b c) (hlen : a.length + b.length ≤ 64) (hup : ∀ l, upper (upper l) = upper l)
    (hcase : ∀ (j : Nat) (rt : GToken) l, ts[j]? = some rt → rt.re.isSome = true → rt.flags.caseless = true → find j l = l →
      find j (upper l) = upper l)
    {node : Nat → Nat} {next after : Nat → Int → Prop} (hp : Predicts g (tableOf g) node next after)
    (hone : OneToken g (tableOf g) node next after (Alike upper find g))
    (env : PEnv σ) (henv : env.g = g) (hupper : env.upper = upper) (hh : HooksPass env)
    {re : List Nat → Option Matcher} (tenv : TEnv η) (hl : LexersOf re ts tenv.lexers) (hx : WholeMatches re find ts) (hany : ∃ t ∈ ts, t.re ≠ none)
    {root : Chunk} (hroot : bodies[rootNode]? = some root) {n : Nat} (hn : 0 < n) {ls : LState η} {l : SrcList.State Src}
    (hq : Lexer.Holds ls.ps.src l) (hlt : ∀ x ∈ l, x.1.content.length < n)
    {toks : List Token} (hcut : CutsFor re ts (Requested g upper next env.fullSource) l toks []) {w : List Sym} (hw : w ∈ lang root) {items : List Item}
    (hsp : Spells (fun x t => Stands g upper x t ∧ g.isSideType t.type = false) (fun t => g.isSideType t.type = true)
      (fun i u => u ≠ [] ∧ ∃ c, bodies[i]? = some c ∧ u ∈ lang c) w items)
    (hts : toks.filter (fun t => t.type ≠ eofTokenType) = leavesOf items) (pos : SrcPos) :
    ∃ N, ∀ fuel', N ≤ fuel' → ∃ pc items' hooks results l' rest, parse (pipelineEnv env tenv [] n) fuel' ls pos = .done (.ok pc) ∧
      NodeRun (pipelineEnv env tenv [] n) 0 (some (rootToken pos)) items' [] hooks results pc.log ∧ dropSides g items' = started (dropSides g items) ∧
      Lexer.Holds pc.src.ps.src l' ∧ Cuts re ts l' rest [] ∧ NoOrdinary g rest ∧
      ((∀ (s : Nat) gs, g.tables.states[s]? = some gs → AsksText ts gs.types) →
        (∀ (s : Nat) k r, r ∈ tableOf g s k → r.state = finalState → node s = rootNode → k = anyToken) → l' = []) := by
  obtain ⟨n, rfl⟩ : ∃ k, n = k + 1 := ⟨n - 1, by omega⟩
  subst henv hupper
  have hfit := layout_fit hlay hlen
  obtain ⟨hm, hc, ⟨heads, ho⟩, -, -⟩ := compiled_tables h hloop hsafe
  have hfetched : ∀ t ∈ leavesOf items, Fetched find ts t := by
    intro t ht
    rw [← hts, List.mem_filter] at ht
    rcases cuts_fetched hx (cutsFor_cuts hcut) t ht.1 with h1 | h1
    · simp [h1] at ht
    · exact h1
  obtain ⟨⟨first, hfirst, hacc⟩, hsp'⟩ := described_readable h hloop hsafe hlay hlen hup hcase hroot hw hsp hfetched
  obtain ⟨ks, hk, -, hway⟩ := way_of_spells ho (R := fun t k => Readable env.g env.upper (tableOf env.g) (Alike env.upper find env.g) t k)
    (fun x t ⟨k, h2, h3⟩ => ⟨k, h2, h3, h3.ordinary⟩) (fun _ h => h.2) hsp'
  rw [← hts] at hk
  have hall : AsksText ts allTokenTypes := by
    obtain ⟨t, ht, hr⟩ := hany
    obtain ⟨i, hi⟩ := List.mem_iff_getElem?.1 ht
    have := hfit i t hi hr
    exact ⟨i, t, hi, hr, by rw [allTokenTypes, BitVec.getLsbD_allOnes]; simpa using this⟩
  have hrun : Way env.g (tableOf env.g) [⟨(first : Int), rootNode, some (rootToken pos), []⟩] ks (started (dropSides env.g items)) := by
    simpa using (hway first hacc).2 rootNode (some (rootToken pos)) [] [] [] _ (.done)
  obtain ⟨N, hN⟩ := run_followed_on (env := pipelineEnv env tenv [] (n + 1)) (F := Requested env.g env.upper next env.fullSource)
    (Q := TextFor re ts (Requested env.g env.upper next env.fullSource) (n + 1))
    ⟨hm, hd, hooks_answer hh, hc, ho.keys, hp, hone.single, hone.literal, text_supplies_on env hl hfit _ n,
      fun s gs toks ks h1 h2 h3 => .inl ⟨s, gs, _, h1, rfl, h3, begins_of_keys h2⟩,
      fun hf => ⟨hall, fun toks h2 => .inr ⟨hf, rfl, begins_of_keys h2⟩⟩⟩
    hfirst ⟨l, ⟨hq, hlt⟩, hcut⟩ (hk.mono (P' := Passed env.g) fun _ h => h.1).filtered pos
    (T := started (dropSides env.g items)) (way_greedy hp hone hrun (stacked_start hp hfirst _))
  refine ⟨N, fun fuel' hf => ?_⟩
  obtain ⟨pc, h1, ⟨items', ⟨hooks, results, h2, -⟩, h3⟩, rest, ⟨l', hat, hcut'⟩, hk', hend⟩ := hN fuel' hf
  refine ⟨pc, items', hooks, results, l', rest, h1, h2, h3, hat.1, cutsFor_cuts hcut', onlySides_of_keys hk', fun ha hb => ?_⟩
  rcases hend with rfl | ⟨s, gs, h4, h5⟩ | ⟨s, k, r, h4, h5, h6, h7⟩
  · cases hcut'; rfl
  · exact absurd (ha s gs h4) h5
  · exact absurd (hb s k r h4 h5 h6) h7

/-! ### Samples -/

/-- `$n` is a small letter, `$v` is any character except for a space, `$s` is a space. -/
def pairRe (r : List Nat) : Option Matcher :=
  match r with
  | [k] => some fun text => match text with
    | c :: _ => if (k = 110 ∧ 97 ≤ c ∧ c ≤ 122) ∨ (k = 118 ∧ c ≠ 32) ∨ (k = 115 ∧ c = 32) then some 1 else none
    | [] => none
  | _ => none

/-- `$v` has its own group. -/
def pairTokens : List GToken :=
  [⟨[110], some [110], 0, {}⟩, ⟨[118], some [118], 1, {}⟩, ⟨[115], some [115], 0, { side := true, noLiterals := true }⟩]

/-- `root = {$n, $v}`. -/
def pairBodies : List Chunk := [cSeq [cRep [.token 0, .token 1]]]

/-- Sample lexers. -/
def pairLexers : List Lexer := ((newLexers pairRe pairTokens).getD none).getD []

theorem pairLexers_of : LexersOf pairRe pairTokens pairLexers := by
  have hplain : PlainLiterals pairTokens := by unfold PlainLiterals; decide
  refine ⟨?_, hplain, ?_⟩
  · have h : ((newLexers pairRe pairTokens).getD none).isSome = true := by decide +kernel
    obtain ⟨r, hr, -⟩ := C59_lexers_made pairRe hplain
    unfold pairLexers
    rw [hr] at h ⊢
    obtain ⟨ls, hls⟩ := Option.isSome_iff_exists.1 h
    simp only [Option.getD_some] at hls
    rw [hls]
    rfl
  · intro r m h text n hn
    unfold pairRe at h
    split at h
    · cases h
      simp only at hn
      split at hn
      · split at hn
        · cases hn; simp
        · cases hn
      · cases hn
    · cases h

theorem pair_matches {i c n : Nat} {rest : List Nat} (h : TypeMatches pairRe pairTokens i (c :: rest) n) :
    n = 1 ∧ ((i = 0 ∧ 97 ≤ c ∧ c ≤ 122) ∨ (i = 1 ∧ c ≠ 32) ∨ (i = 2 ∧ c = 32)) := by
  obtain ⟨t, r, m, h1, h2, h3, h4⟩ := h
  match i, h1 with
  | 0, h1 | 1, h1 | 2, h1 =>
    cases h1; cases h2; cases h3
    simp only at h4
    split at h4
    · cases h4
      rename_i hc
      simp at hc
      simp [hc]
    · cases h4
  | i + 3, h1 => simp [pairTokens] at h1

theorem pair_in {i k : Nat} (h : InGroup pairTokens k i) : (i = 0 ∧ k = 0) ∨ (i = 1 ∧ k = 1) ∨ (i = 2 ∧ k = 0) := by
  obtain ⟨t, r, h1, h2, h3⟩ := h
  match i, h1 with
  | 0, h1 | 1, h1 | 2, h1 => cases h1; simpa using h3.symm
  | i + 3, h1 => simp [pairTokens] at h1

/-- Conditions on the grammar hold for the sample. -/
theorem pair_ready : ∃ g, compile id (fun _ l => l) pairTokens (pairBodies.map some) (List.range 1) (List.range 1) (List.range 1) 100 = .done (.ok g) ∧
    Compiled id (fun _ l => l) pairTokens pairBodies (List.range 1) (List.range 1) (List.range 1) 100 g ∧
    (∀ c ∈ pairBodies, LoopOk true c) ∧ SafeMachines pairBodies (List.range 1) (List.range 1) 100 ∧ DistinctLiterals g ∧
    g.tokens = pairTokens ∧ g.tables.states.map (·.types) = [5, 6] ∧ (certOf g 6).next = [[-3, 0], [1]] ∧
    (∀ r ∈ g.tables.rules, r.state = finalState → r.token = anyToken) ∧
    predictsCheck g (certOf g 6) = true ∧ oneTokenCheck g (certOf g 6) (alikeKeys (fun _ l => l) g.tokens) = true := by
  have hwf : ∀ c ∈ pairBodies, WF c ∧ IsBody c := by
    simp [pairBodies, cSeq, cRep, WF, WFs, IsBody]
  have hc : (match compile id (fun _ l => l) pairTokens (pairBodies.map some) (List.range 1) (List.range 1) (List.range 1) 100 with
      | .done (.ok g) => decide (g.tokens = pairTokens ∧ g.tables.states.map (·.types) = [5, 6] ∧ (certOf g 6).next = [[-3, 0], [1]] ∧
        (∀ r ∈ g.tables.rules, r.state = finalState → r.token = anyToken) ∧
        predictsCheck g (certOf g 6) = true ∧ oneTokenCheck g (certOf g 6) (alikeKeys (fun _ l => l) g.tokens) = true)
      | _ => false) = true := by decide +kernel
  split at hc
  · rename_i g hg
    simp only [decide_eq_true_eq] at hc
    have hd : DistinctLiterals g := by
      refine distinct_of ?_
      rw [hc.1]
      decide
    exact ⟨g, hg, ⟨hg, hwf, by simp [pairBodies, cSeq, cRep, refs, refsAll], List.Perm.refl _, List.Perm.refl _⟩,
      by simp [pairBodies, cSeq, cRep, LoopOk, LoopOkSeq, LoopOkAny], safe_of_check (fun c hc => (hwf c hc).1) (by decide +kernel), hd, hc⟩
  · cases hc

theorem pair_literal {g : Grammar} (hg : g.tokens = pairTokens) {t : Token} {k : Nat} : ¬ IsLiteral g id t k := by
  rintro ⟨-, tt, lt, -, -, h1, h2, -⟩
  rw [hg] at h1
  match k, h1 with
  | 0, h1 | 1, h1 | 2, h1 => cases h1; cases h2
  | k + 3, h1 => simp [pairTokens] at h1

/-- Requested types depend on the next token. -/
theorem pair_requested {g : Grammar} (hg : g.tokens = pairTokens) (hs : g.tables.states.map (·.types) = [5, 6])
    (hn : (certOf g 6).next = [[-3, 0], [1]]) {types : TokenTypeSet} {t : Token} {toks : List Token} {i : Nat} (ht : t.type = i) (hi : i < 2)
    (h : Requested g id (fun s k => k ∈ (certOf g 6).nextOf s) true types (t :: toks)) : types = if i = 0 then 5 else 6 := by
  have hside : g.isSideType t.type = false := by
    rw [ht]
    unfold Grammar.isSideType
    rw [hg]
    match i, hi with
    | 0, _ | 1, _ => decide
  have hkey : ∀ k : Int, Begins g id (t :: toks) k → k = i := by
    intro k hk
    cases hk with
    | side h1 =>
      rcases h1 with h1 | h1
      · rw [ht] at h1; simp [eofTokenType] at h1
      · rw [hside] at h1; cases h1
    | tok h1 _ =>
      rcases h1 with h1 | ⟨h1, -⟩
      · exact absurd h1 (pair_literal hg)
      · rw [← h1, ht]
  rcases h with ⟨s, gs, k, h1, rfl, h3, h4⟩ | ⟨-, -, h4⟩
  · rw [hkey k h4] at h3
    have h5 : (g.tables.states.map (·.types))[s]? = some gs.types := by rw [List.getElem?_map, h1]; rfl
    rw [hs] at h5
    rw [Cert.nextOf, hn] at h3
    match s, i, hi with
    | 0, 0, _ => simpa using h5.symm
    | 0, 1, _ => simp at h3
    | 1, 0, _ => simp at h3
    | 1, 1, _ => simpa using h5.symm
    | s + 2, _, _ => simp at h5
  · have := hkey _ h4
    simp [eoiTokenType] at this

/-- The text `ab` is accepted: `b` is a value here, though it may be a name as well (and the group of names goes first). -/
example : ∃ g, compile id (fun _ l => l) pairTokens (pairBodies.map some) (List.range 1) (List.range 1) (List.range 1) 100 = .done (.ok g) ∧
    ∃ N, ∀ fuel', N ≤ fuel' → ∃ pc, parse (pipelineEnv (pickyEnv g) ({ g := g, lexers := pairLexers } : TEnv Nat) [] 20) fuel' (textState "ab") ⟨none, 0⟩ =
      .done (.ok pc) ∧ Lexer.Holds pc.src.ps.src [] := by
  obtain ⟨g, hg, h1, h2, h3, h4, h5, h6, h7, hfin, h8, h9⟩ := pair_ready
  refine ⟨g, hg, ?_⟩
  obtain ⟨hm, -⟩ := compiled_tables h1 h2 h3
  have hcut : CutsFor pairRe pairTokens (Requested g id (fun s k => k ∈ (certOf g 6).nextOf s) true) [(textSource 1 "ab", 0)]
      [⟨0, "n", [97], ⟨some (textSource 1 "ab"), 0⟩⟩, ⟨1, "v", [98], ⟨some (textSource 1 "ab"), 1⟩⟩, endOf (textSource 1 "ab")] [] := by
    have hfirst : FirstOf pairRe pairTokens 0 [97, 98] 0 1 := ⟨⟨_, _, rfl, rfl, rfl⟩, ⟨_, _, _, rfl, rfl, rfl, rfl⟩, by omega⟩
    have hsecond : FirstOf pairRe pairTokens 1 [98] 1 1 := by
      refine ⟨⟨_, _, rfl, rfl, rfl⟩, ⟨_, _, _, rfl, rfl, rfl, rfl⟩, fun j hj hin => ?_⟩
      rcases pair_in hin with h | h | h <;> omega
    refine .tok (p := 0) (k := 0) (n := 1) (t := pairTokens[0]) (by decide) hfirst (by omega) rfl (fun types ht => ?_) ?_
    · obtain rfl := pair_requested h5 h6 h7 (i := 0) rfl (by omega) ht
      exact ⟨0, ⟨hfirst, by omega, rfl⟩, by omega⟩
    · refine .tok (p := 1) (k := 1) (n := 1) (t := pairTokens[1]) (by decide) hsecond (by omega) rfl (fun types ht => ?_) ?_
      · obtain rfl := pair_requested h5 h6 h7 (i := 1) rfl (by omega) ht
        refine ⟨1, ⟨hsecond, by omega, rfl⟩, fun k' hk i' n' ⟨⟨hin, hma, _⟩, _, hr⟩ => ?_⟩
        obtain ⟨-, hc⟩ := pair_matches (c := 98) (rest := []) hma
        rcases pair_in hin with ⟨rfl, h⟩ | ⟨rfl, h⟩ | ⟨rfl, h⟩
        · cases hr
        · omega
        · omega
      · exact .eof .nil
  have hword : [Sym.tok 0, .tok 1] ∈ lang (cSeq [cRep [.token 0, .token 1]]) := by
    have : [Sym.tok 0, .tok 1] ∈ langSeq [.token 0, .token 1] := by simp [lang, langSeq, mem_lang_cons, mem_singleton_lang]
    simp only [cSeq, cRep, lang, langSeq, mul_one, Bool.false_eq_true, if_false, if_true] at this ⊢
    exact Language.mem_kstar.2 ⟨[[.tok 0, .tok 1]], by simp, by simpa using this⟩
  have hmatch : ∀ (t : Token) (i : Nat), t.type = i → i < 2 → (Stands g id (.tok i) t ∧ g.isSideType t.type = false) := by
    intro t i ht hi
    refine ⟨.inr ⟨ht, fun k hk => absurd hk (pair_literal h5)⟩, ?_⟩
    rw [ht]
    unfold Grammar.isSideType
    rw [h5]
    match i, hi with
    | 0, _ | 1, _ => decide
  obtain ⟨N, hN⟩ := C65_groups_partial (a := pairTokens) (b := []) (c := []) h1 h2 h3 h4 ⟨by decide, by decide, by decide, by decide⟩ (by decide)
    (fun _ => rfl) (fun j rt l _ _ _ h => h) (predicts_of_check hm h8)
    (oneToken_of_check hm (fun _ _ h => alike_keys h4 (fun j rt l _ _ _ h => h) h) h9) (pickyEnv g) rfl rfl
    ⟨fun log e => ⟨none, rfl⟩, fun log e => ⟨false, rfl⟩⟩ ({ g := g, lexers := pairLexers } : TEnv Nat) pairLexers_of (fun _ _ _ _ _ _ _ _ _ _ => rfl)
    (by decide) rfl (n := 20) (by omega) (ls := textState "ab") (textQueue_holds "ab") (by decide) hcut hword
    (.tok (hmatch _ 0 rfl (by omega)) (.tok (hmatch _ 1 rfl (by omega)) .nil)) rfl ⟨none, 0⟩
  refine ⟨N, fun fuel' hf => ?_⟩
  obtain ⟨pc, items', hooks, results, l', rest, e, -, -, hl', -, -, hall⟩ := hN fuel' hf
  refine ⟨pc, e, ?_⟩
  have : l' = [] := by
    refine hall ?_ ?_
    · intro s gs hs
      have e : (g.tables.states.map (·.types))[s]? = some gs.types := by rw [List.getElem?_map, hs]; rfl
      rw [h6] at e
      match s, e with
      | 0, e => exact ⟨0, _, rfl, by decide, by rw [← Option.some.inj e]; rfl⟩
      | 1, e => exact ⟨1, _, rfl, by decide, by rw [← Option.some.inj e]; rfl⟩
      | s + 2, e => simp at e
    · intro s k r hr hf _
      have hne : tableOf g s k ≠ [] := List.ne_nil_of_mem hr
      have h1 := hm.find s _ (List.getElem?_eq_getElem (tableOf_lt hne)) [k]
      rw [← hm.token s k r hr]
      refine hfin r (findRulesBy_mem h1 ?_) hf
      unfold firstRules
      simpa [hne] using hr
  rwa [this] at hl'

end Verif.Props
