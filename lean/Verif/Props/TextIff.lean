/-
C65: when one token is enough to choose a rule, accepted texts are exactly the described ones.
-/
import Verif.Proof.Scan
import Verif.Props.OneTokenIff

namespace Verif.Props

open Verif.Model Verif.Spec Verif.Spec.Ebnf Verif.Proof

variable {σ η : Type}

/-- The lexer of a parser for token types `ts`: one group; expressions match texts matched by them (`find` is used to check literals). -/
structure TextLexer (re : List Nat → Option Matcher) (find : Nat → List Nat → List Nat) (ts : List GToken) (lexers : List Lexer) : Prop where
  lexers : LexersOf re ts lexers
  group : OneGroup ts
  any : ∃ t ∈ ts, t.re ≠ none
  whole : ∀ (j : Nat) (t : GToken) r m text n, ts[j]? = some t → t.re = some r → re r = some m → m text = some n →
    find j (text.take n) = text.take n

/-- C65: there is at most one way to cut a text into tokens. -/
theorem C65_one_way {re : List Nat → Option Matcher} {ts : List GToken} {l : SrcList.State Src} {toks toks' : List Token}
    (h : Reads re ts l toks []) (h' : Reads re ts l toks' []) : toks = toks' := by
  generalize hl : ([] : SrcList.State Src) = l' at h h'
  induction h generalizing toks' with
  | nil => subst hl; cases h'; rfl
  | tok h1 h2 h3 h4 _ ih =>
    cases h' with
    | nil => cases hl
    | tok h1' h2' h3' h4' h5' =>
      obtain ⟨rfl, rfl⟩ := first_unique h2 h2'
      rw [h4] at h4'
      cases h4'
      rw [ih hl h5']
    | eof => omega
  | eof _ ih =>
    cases h' with
    | nil => cases hl
    | tok h1' => omega
    | eof h' => rw [ih hl h']

/-- C65: nothing of the text is lost: the tokens put together are what was left to read. -/
theorem C65_lossless {re : List Nat → Option Matcher} {ts : List GToken} {l : SrcList.State Src} {toks : List Token}
    (h : Reads re ts l toks []) : toks.flatMap (·.content) = l.flatMap fun x => x.1.content.drop x.2 := by
  generalize hl : ([] : SrcList.State Src) = l' at h
  induction h with
  | nil => subst hl; rfl
  | @tok src p i n t rest l toks h1 h2 h3 h4 _ ih =>
    rw [List.flatMap_cons, ih hl, List.flatMap_cons, List.flatMap_cons, ← List.append_assoc, ← List.drop_drop, List.take_append_drop]
  | eof _ ih =>
    rw [List.flatMap_cons, ih hl, List.flatMap_cons, List.drop_length]
    rfl

theorem layout_fit {ts a b c : List GToken} (hlay : Layout ts a b c) (hlen : a.length + b.length ≤ 64) : TypesFit ts := by
  intro i t ht hr
  by_contra hge
  rw [hlay.eq, List.append_assoc, List.getElem?_append_right (by omega)] at ht
  rcases List.mem_append.1 (List.mem_of_getElem? ht) with ht | ht
  · exact hr (hlay.ext t ht).1
  · exact hr (hlay.lit t ht).1

theorem reads_fetched {re : List Nat → Option Matcher} {find : Nat → List Nat → List Nat} {ts : List GToken} {lexers : List Lexer}
    (hx : TextLexer re find ts lexers) {l l' : SrcList.State Src} {toks : List Token} (h : Reads re ts l toks l') :
    ∀ t ∈ toks, t.type = eofTokenType ∨ (Fetched find ts t ∧ t.pos.src.isSome = true) := by
  induction h with
  | nil => simp
  | @tok src p i n t rest l toks h1 h2 h3 h4 _ ih =>
    refine List.forall_mem_cons.mpr ⟨.inr ⟨?_, rfl⟩, ih⟩
    obtain ⟨-, ⟨t', r, m, h5, h6, h7, h8⟩, -⟩ := h2
    refine ⟨by simp, ⟨t', by simpa using h5, by simp [h6]⟩, ?_⟩
    exact hx.whole i t' r m _ n h5 h6 h7 h8
  | eof _ ih => exact List.forall_mem_cons.mpr ⟨.inl rfl, ih⟩

/-- C65: whatever is accepted is cut into tokens to the very end (for grammars in which there is never more than one rule). -/
theorem C65_accepted_is_read {re : List Nat → Option Matcher} {ts : List GToken} (env : PEnv σ) (tenv : TEnv η)
    (hl : LexersOf re ts tenv.lexers) (hg : OneGroup ts)
    (hone : ∀ tok s rules, findRules env.g env.upper tok s = some rules → rules.length ≤ 1) (hfull : env.fullSource = true)
    {n : Nat} (hn : 0 < n) {ls : LState η} {l : SrcList.State Src} (hq : Lexer.Holds ls.ps.src l) (hlen : ∀ x ∈ l, x.1.content.length < n)
    {fuel : Nat} {pos : SrcPos} {pc : PC (LState η)} (h : parse (pipelineEnv env tenv [] n) fuel ls pos = .done (.ok pc)) :
    ∃ toks, Reads re ts l toks [] := by
  obtain ⟨n, rfl⟩ : ∃ k, n = k + 1 := ⟨n - 1, by omega⟩
  have hpr := text_progress env hl hg n l
  obtain ⟨s, toks, -, h1⟩ := parse_progress hpr hone hfull (src := ls) ⟨[], l, ⟨hq, hlen⟩, .nil⟩ h
  exact ⟨toks, h1⟩

/-- C65, partial: let the grammar be compiled and one token be enough to choose a rule in it, let the parser have the lexer of the
grammar and be told to read the whole input. Then the parser accepts a text (a list of sources, from their current places) if and only
if the text is cut into tokens to the very end, and ordinary tokens are the leaves of a tree which is described by the grammar and has
no empty nested nodes. `n` is the number of steps sufficient for the lexer.
Missing: as in `C63_accepted_iff_described_partial`; token hooks; several groups of types, for which a text is cut depending on expected
types. -/
theorem C65_text_accepted_iff_described_partial {upper : List Nat → List Nat} {find : Nat → List Nat → List Nat} {ts a b c : List GToken}
    {bodies : List Chunk} {order1 order2 order3 : List Nat} {fuel : Nat} {g : Grammar}
    (h : Compiled upper find ts bodies order1 order2 order3 fuel g) (hloop : ∀ c ∈ bodies, LoopOk true c)
    (hsafe : SafeMachines bodies order2 order3 fuel) (hd : DistinctLiterals g)
    (hlay : Layout ts a b c) (hlen : a.length + b.length ≤ 64) (hup : ∀ l, upper (upper l) = upper l)
    (hcase : ∀ (j : Nat) (rt : GToken) l, ts[j]? = some rt → rt.re.isSome = true → rt.flags.caseless = true → find j l = l →
      find j (upper l) = upper l)
    (hone : OneTokenGrammar upper find g)
    (env : PEnv σ) (henv : env.g = g) (hupper : env.upper = upper) (hfull : env.fullSource = true) (hh : HooksPass env)
    {re : List Nat → Option Matcher} (tenv : TEnv η) (hx : TextLexer re find ts tenv.lexers)
    {root : Chunk} (hroot : bodies[rootNode]? = some root) {n : Nat} (hn : 0 < n) {ls : LState η} {l : SrcList.State Src}
    (hq : Lexer.Holds ls.ps.src l) (hl : ∀ x ∈ l, x.1.content.length < n) (pos : SrcPos) :
    (∃ fuel' pc, parse (pipelineEnv env tenv [] n) fuel' ls pos = .done (.ok pc)) ↔
      ∃ toks w items, Reads re ts l toks [] ∧ w ∈ lang root ∧
        Spells (fun x t => Stands g upper x t ∧ g.isSideType t.type = false) (fun _ => False)
          (fun i u => u ≠ [] ∧ ∃ c, bodies[i]? = some c ∧ u ∈ lang c) w items ∧
        leavesOf items = toks.filter fun t => t.type ≠ eofTokenType ∧ g.isSideType t.type = false := by
  have hfit := layout_fit hlay hlen
  have hsome : ∃ k i, InGroup ts k i := by
    obtain ⟨t, ht, hr⟩ := hx.any
    obtain ⟨i, hi⟩ := List.mem_iff_getElem?.1 ht
    obtain ⟨r, hr⟩ := Option.ne_none_iff_exists'.mp hr
    exact ⟨t.group, i, t, r, hi, hr, rfl⟩
  have key : ∀ toks, Reads re ts l toks [] → _ := fun toks hr =>
    C63_accepted_iff_described_partial h hloop hsafe hd hlay hlen hup hcase hone (pipelineEnv env tenv [] (n - 1 + 1)) henv hupper hfull hh
      (text_supplies env hx.lexers hx.group hfit hsome (n - 1)) (text_rereads env hx.lexers hx.group (n - 1)) hroot
      (q := ls) ⟨l, ⟨hq, by rwa [show n - 1 + 1 = n by omega]⟩, hr⟩ (reads_fetched hx hr) pos
  rw [show n - 1 + 1 = n by omega] at key
  constructor
  · rintro ⟨fuel', pc, hp⟩
    obtain ⟨node, next, after, -, h1⟩ := hone
    obtain ⟨hm, -⟩ := compiled_tables h hloop hsafe
    obtain ⟨toks, hr⟩ := C65_accepted_is_read env tenv hx.lexers hx.group (fun tok s rules hf => by
      rw [henv] at hf
      exact findRules_length hm h1.single hf) hfull hn hq hl hp
    obtain ⟨w, items, h2⟩ := (key toks hr).1 ⟨fuel', pc, hp⟩
    exact ⟨toks, w, items, hr, h2⟩
  · rintro ⟨toks, w, items, hr, h2⟩
    exact (key toks hr).2 ⟨w, items, h2⟩

/-! ### Samples -/

/-- `$n` is a small letter, `$d` is any other character except for a space and `?`, `$s` is a space. -/
def charRe (r : List Nat) : Option Matcher :=
  match r with
  | [k] => some fun text => match text with
    | c :: _ => if c ≠ 63 ∧ [110, 100, 115][charType c]? = some k then some 1 else none
    | [] => none
  | _ => none

/-- `sampleTokens` with different expressions. -/
def textTokens : List GToken := sampleTokens.map fun t => if t.re.isSome then { t with re := some t.name } else t

/-- Sample lexers. -/
def textLexers : List Lexer := ((newLexers charRe textTokens).getD none).getD []

theorem textLexers_of : TextLexer charRe sampleFind textTokens textLexers := by
  have hplain : PlainLiterals textTokens := by unfold PlainLiterals; decide
  refine ⟨⟨?_, hplain, ?_⟩, by unfold OneGroup; decide, by decide, ?_⟩
  · have h : ((newLexers charRe textTokens).getD none).isSome = true := by decide +kernel
    obtain ⟨r, hr, -⟩ := C59_lexers_made charRe hplain
    unfold textLexers
    rw [hr] at h ⊢
    obtain ⟨ls, hls⟩ := Option.isSome_iff_exists.1 h
    simp only [Option.getD_some] at hls
    rw [hls]
    rfl
  · intro r m h text n hn
    unfold charRe at h
    split at h
    · cases h
      simp only at hn
      split at hn
      · split at hn
        · cases hn; simp
        · cases hn
      · cases hn
    · cases h
  · intro j t r m text n h1 h2 h3 h4
    unfold charRe at h3
    split at h3
    · rename_i k
      cases h3
      simp only at h4
      split at h4
      · rename_i c text
        split at h4
        · rename_i hc
          obtain ⟨-, hc⟩ := hc
          cases h4
          have hj : j < 8 := (List.getElem?_eq_some_iff.1 h1).1
          have key : ∀ j < 8, ∀ q < 3, (textTokens[j]?).bind (·.re) = ([110, 100, 115][q]?).map ([·]) → q = j := by decide
          have hq : charType c < 3 := (List.getElem?_eq_some_iff.1 hc).1
          have : charType c = j := key j hj _ hq (by rw [h1, hc]; exact h2)
          simp [sampleFind, this]
        · cases h4
      · cases h4
    · cases h3

/-- A parser with the sample lexer. -/
def textEnv (g : Grammar) : PEnv (LState Nat) := pipelineEnv (pickyEnv g) ({ g := g, lexers := textLexers } : TEnv Nat) [] 20

/-- The state in the beginning of a text. -/
def textState (s : String) : LState Nat := ⟨[], { src := textQueue s, st := 0 }⟩

theorem textQueue_holds (s : String) : Lexer.Holds (textQueue s) [(textSource 1 s, 0)] := by
  obtain ⟨q, e, r⟩ := SrcQueue.new_rep
  obtain ⟨q1, e1, r1⟩ := r.append (textSource 1 s)
  have hq : q = ⟨emptyRing, none, 0⟩ := by
    have : SrcQueue.new = some ⟨emptyRing, none, 0⟩ := by decide +kernel
    rw [this] at e
    exact (Option.some.inj e).symm
  subst hq
  have h1 : SrcQueue.append ⟨emptyRing, none, 0⟩ (textSource 1 s) = some (textQueue s) := by
    have hc : SrcQueue.hasContent ⟨emptyRing, none, 0⟩ = false := rfl
    simp [SrcQueue.append, textQueue, hc]
  rw [h1] at e1
  cases e1
  exact ⟨r1, ⟨by simp, by simp, by simp⟩, by simp⟩

/-- Conditions on the grammar hold for the sample. -/
theorem textOne_ready : ∃ g, compile id sampleFind textTokens (sampleOne.map some) (List.range 2) (List.range 2) (List.range 2) 100 = .done (.ok g) ∧
    Compiled id sampleFind textTokens sampleOne (List.range 2) (List.range 2) (List.range 2) 100 g ∧
    (∀ c ∈ sampleOne, LoopOk true c) ∧ SafeMachines sampleOne (List.range 2) (List.range 2) 100 ∧ DistinctLiterals g ∧
    OneTokenGrammar id sampleFind g := by
  have hwf : ∀ c ∈ sampleOne, WF c ∧ IsBody c := by
    simp [sampleOne, cSeq, cRep, cOpt, cX, cY, WF, WFs, IsBody]
  have hc : (match compile id sampleFind textTokens (sampleOne.map some) (List.range 2) (List.range 2) (List.range 2) 100 with
      | .done (.ok g) => decide (((g.tokens.filter fun t => t.flags.literal).map (·.name)).Nodup) &&
        predictsCheck g (certOf g 6) && oneTokenCheck g (certOf g 6) (alikeKeys sampleFind g.tokens)
      | _ => false) = true := by decide +kernel
  split at hc
  · rename_i g hg
    simp only [Bool.and_eq_true, decide_eq_true_eq] at hc
    obtain ⟨⟨h1, h3⟩, h4⟩ := hc
    have hcomp : Compiled id sampleFind textTokens sampleOne (List.range 2) (List.range 2) (List.range 2) 100 g :=
      ⟨hg, hwf, by simp [sampleOne, cSeq, cRep, cOpt, cX, cY, refs, refsAll], List.Perm.refl _, List.Perm.refl _⟩
    have hloop : ∀ c ∈ sampleOne, LoopOk true c := by
      simp [sampleOne, cSeq, cRep, cOpt, cX, cY, LoopOk, LoopOkSeq, LoopOkAny]
    have hsafe : SafeMachines sampleOne (List.range 2) (List.range 2) 100 := safe_of_check (fun c hc => (hwf c hc).1) (by decide +kernel)
    exact ⟨g, hg, hcomp, hloop, hsafe, distinct_of h1,
      C61_one_token_checked (compiled_tables hcomp hloop hsafe).1 (distinct_of h1) (fun j rt l _ _ _ h => h) 6 h3 h4⟩
  · cases hc

/-- Tokens and a tree of a text for the sample grammar. -/
def TextTree (g : Grammar) (s : String) : Prop :=
  ∃ toks w items, Reads charRe textTokens [(textSource 1 s, 0)] toks [] ∧ w ∈ lang (cSeq [cRep [.node 1], cY]) ∧
    Spells (fun x t => Stands g id x t ∧ g.isSideType t.type = false) (fun _ => False)
      (fun i u => u ≠ [] ∧ ∃ c, sampleOne[i]? = some c ∧ u ∈ lang c) w items ∧
    leavesOf items = toks.filter fun t => t.type ≠ eofTokenType ∧ g.isSideType t.type = false

/-- Texts of `sampleOne`: ` 1y x y` is accepted, therefore it has tokens and a tree; `yy` and `y?` are rejected (the outcome of 100
steps is final), therefore they have none. -/
example : ∃ g, compile id sampleFind textTokens (sampleOne.map some) (List.range 2) (List.range 2) (List.range 2) 100 = .done (.ok g) ∧
    TextTree g " 1y x y" ∧ ¬ TextTree g "yy" ∧ ¬ TextTree g "y?" := by
  obtain ⟨g, hg, h1, h2, h3, h4, h5⟩ := textOne_ready
  have hrun : (match compile id sampleFind textTokens (sampleOne.map some) (List.range 2) (List.range 2) (List.range 2) 100 with
      | .done (.ok g) => (match parse (textEnv g) 100 (textState " 1y x y") ⟨none, 0⟩, parse (textEnv g) 100 (textState "yy") ⟨none, 0⟩,
          parse (textEnv g) 100 (textState "y?") ⟨none, 0⟩ with
        | .done (.ok _), .done (.error _), .done (.error _) => true
        | _, _, _ => false)
      | _ => false) = true := by decide +kernel
  rw [hg] at hrun
  dsimp only at hrun
  have key : ∀ s ∈ [" 1y x y", "yy", "y?"], (∃ fuel' pc, parse (textEnv g) fuel' (textState s) ⟨none, 0⟩ = .done (.ok pc)) ↔ TextTree g s := by
    intro s hs
    refine C65_text_accepted_iff_described_partial (a := textTokens.take 3) (b := []) (c := textTokens.drop 3) h1 h2 h3 h4
      ⟨by decide, by decide, by decide, by decide⟩ (by decide) (fun l => rfl) (fun j rt l _ _ _ h => h) h5 (pickyEnv g) rfl rfl rfl
      ⟨fun log e => ⟨none, rfl⟩, fun log e => ⟨false, rfl⟩⟩ _ textLexers_of rfl (by decide) (ls := textState s) (l := [(textSource 1 s, 0)]) ?_ ?_ _
    · exact textQueue_holds s
    · simp only [List.mem_singleton, forall_eq]
      revert s
      decide
  have no : ∀ s ∈ ["yy", "y?"], ∀ e, parse (textEnv g) 100 (textState s) ⟨none, 0⟩ = .done (.error e) → ¬ TextTree g s := by
    intro s hs e e2 hd
    obtain ⟨n, pc', e3⟩ := (key s (by simp at hs ⊢; tauto)).2 hd
    have e4 := C30_more_steps (textEnv g) (Nat.le_max_left 100 n) (textState s) ⟨none, 0⟩ (by rw [e2]; simp)
    have e5 := C30_more_steps (textEnv g) (Nat.le_max_right 100 n) (textState s) ⟨none, 0⟩ (by rw [e3]; simp)
    rw [e4, e2, e3] at e5
    cases e5
  split at hrun
  · rename_i pc e e' e1 e2 e3
    exact ⟨g, hg, (key _ (by simp)).1 ⟨100, pc, e1⟩, no _ (by simp) _ e2, no _ (by simp) _ e3⟩
  · cases hrun

end Verif.Props
