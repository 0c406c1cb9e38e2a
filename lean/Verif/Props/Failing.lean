/-
C83: what errors of a parse mean.
-/
import Verif.Proof.Failing
import Verif.Props.Rest

namespace Verif.Props

open Verif Verif.Model Verif.Spec Verif.Proof

variable {σ η : Type} {re : List Nat → Option Matcher} {ts : List GToken}

/-- C83: errors of a parse of a source are explained by its text. -/
theorem C83_errors_partial (env : PEnv σ) {tenv : TEnv η} (hl : LexersOf re ts tenv.lexers) {n : Nat} {src : Src} (hn : src.content.length < n)
    {q0 q : SrcQueue} (hq0 : SrcQueue.new = some q0) (hq : q0.append (some src) = some q) {fuel : Nat} {st : η} {e : PErr}
    (h : parse (pipelineEnv env tenv [] n) fuel ⟨[], { src := q, st := st }⟩ q.sourcePos = .done (.error e)) :
    Explains re ts env [(src, 0)] e := by
  obtain ⟨n, rfl⟩ : ∃ k, n = k + 1 := ⟨n - 1, by omega⟩
  obtain ⟨q1, e1, r⟩ := SrcQueue.new_rep
  obtain rfl : q1 = q0 := by rw [hq0] at e1; exact (Option.some.inj e1).symm
  obtain ⟨q2, e2, r1⟩ := r.append src
  obtain rfl : q2 = q := by rw [hq] at e2; exact (Option.some.inj e2).symm
  exact parse_explains env hl (.inr ⟨0, rfl⟩) hn ⟨r1, ⟨by simp, by simp, by simp⟩, by simp⟩ h

theorem appended_rep {q q' : SrcQueue} {ss : List Src} (h : Appended q ss q') (hs : ∀ s ∈ ss, s.content ≠ []) {l : SrcList.State Src}
    (hr : SrcQueue.Rep q l) (hl : ∀ x ∈ l, x.1.content ≠ []) : SrcQueue.Rep q' (l ++ ss.map fun s => (s, 0)) := by
  induction h generalizing l with
  | nil => simpa using hr
  | @cons q q1 q' s ss h1 _ ih =>
    obtain ⟨q2, e2, r2⟩ := hr.append s
    obtain rfl : q2 = q1 := by rw [h1] at e2; exact (Option.some.inj e2).symm
    have hs0 : s.content ≠ [] := hs s (by simp)
    have he : SrcList.append Src.len l s = l ++ [(s, 0)] := by
      cases l with
      | nil => rfl
      | cons x rest =>
        obtain ⟨c, p⟩ := x
        have hc : c.content ≠ [] := hl (c, p) (by simp)
        simp [SrcList.append, Src.len, hc, hs0]
    rw [he] at r2
    have := ih (fun s hs' => hs s (by simp [hs'])) r2 (by
      intro x hx
      rcases List.mem_append.mp hx with hx | hx
      · exact hl x hx
      · rw [List.mem_singleton] at hx
        subst hx
        exact hs0)
    simpa using this

/-- C83 for several sources: if the parser does not check that the whole source is read, errors are explained by texts of sources. Missing:
checks of the whole source (the last token is given back to the queue before them), empty sources. -/
theorem C83_sources_partial (env : PEnv σ) (hfull : env.fullSource = false) {tenv : TEnv η} (hl : LexersOf re ts tenv.lexers) {n : Nat} (hn0 : 0 < n)
    {srcs : List Src} (hn : ∀ s ∈ srcs, s.content ≠ [] ∧ s.content.length < n) (hlen : srcs.length ≤ 2 ^ 31) {q0 q : SrcQueue}
    (hq0 : SrcQueue.new = some q0) (hq : Appended q0 srcs q) {fuel : Nat} {st : η} {e : PErr}
    (h : parse (pipelineEnv env tenv [] n) fuel ⟨[], { src := q, st := st }⟩ q.sourcePos = .done (.error e)) :
    Explains re ts env (srcs.map fun s => (s, 0)) e := by
  obtain ⟨q1, e1, r⟩ := SrcQueue.new_rep
  obtain rfl : q1 = q0 := by rw [hq0] at e1; exact (Option.some.inj e1).symm
  have hr := appended_rep hq (fun s hs => (hn s hs).1) r (by simp)
  rw [List.nil_append] at hr
  have hok : SrcQueue.Ok (srcs.map fun s => (s, 0)) := by
    have hne : ∀ x ∈ srcs.map (fun s : Src => (s, 0)), x.1.len ≠ 0 := by
      intro x hx
      obtain ⟨s, hs, rfl⟩ := List.mem_map.mp hx
      simpa [Src.len] using (hn s hs).1
    refine ⟨?_, ?_, fun x hx => hne x (List.mem_of_mem_tail hx)⟩
    · intro x hx
      obtain ⟨s, hs, rfl⟩ := List.mem_map.mp hx
      exact Nat.zero_le _
    · intro x rest hx h0
      exact absurd h0 (hne x (by rw [hx]; simp))
  have hholds : Lexer.Holds q (srcs.map fun s => (s, 0)) := ⟨hr, hok, by simpa using hlen⟩
  cases n with
  | zero => omega
  | succ n =>
    refine parse_explains_at env hl (src := ⟨0, "", []⟩) (by simp [hfull]) ⟨hholds, ?_⟩ h
    intro x hx
    obtain ⟨s, hs, rfl⟩ := List.mem_map.mp hx
    exact (hn s hs).2

/-- C83: if the whole text is cut into tokens in every way it may be cut, and node hooks do not fail, the error is about a token or about the
end of the text. -/
theorem C83_no_lexer_error_partial (env : PEnv σ) {tenv : TEnv η} (hl : LexersOf re ts tenv.lexers) {n : Nat} {src : Src} (hn : src.content.length < n)
    {q0 q : SrcQueue} (hq0 : SrcQueue.new = some q0) (hq : q0.append (some src) = some q) {fuel : Nat} {st : η} {e : PErr}
    (hb : ¬ Broken re ts [(src, 0)]) (hh : ∀ log ev x, env.onMake log ev ≠ .error x ∧ env.onCall log ev ≠ .error x)
    (h : parse (pipelineEnv env tenv [] n) fuel ⟨[], { src := q, st := st }⟩ q.sourcePos = .done (.error e)) :
    (e = .unexpectedEof ∧ ∃ toks, Cuts re ts [(src, 0)] toks []) ∨
      ∃ t, (e = .unexpectedToken t ∨ e = .remainingSource t) ∧ Occurs re ts [(src, 0)] t := by
  have h1 := C83_errors_partial env hl hn hq0 hq h
  cases e with
  | lexer e => exact absurd h1 hb
  | hook x =>
    obtain ⟨log, ev, h2 | h2⟩ := h1
    · exact absurd h2 (hh log ev x).1
    · exact absurd h2 (hh log ev x).2
  | wrongToken t => exact h1.elim
  | unexpectedEof => exact .inl ⟨rfl, h1.1⟩
  | unexpectedToken t => exact .inr ⟨t, .inl rfl, h1.1⟩
  | remainingSource t => exact .inr ⟨t, .inr rfl, h1.1⟩

/-- Kind of an error with the place of its token. -/
def kindOf : Run (Except PErr (PC (LState Nat))) → Option (Nat × Int)
  | .done (.error (.lexer _)) => some (0, 0)
  | .done (.error (.hook _)) => some (1, 0)
  | .done (.error .unexpectedEof) => some (2, 0)
  | .done (.error (.unexpectedToken t)) => some (3, t.pos.pos)
  | .done (.error (.remainingSource t)) => some (4, t.pos.pos)
  | _ => none

/-- The parse of a text by a grammar with one node. -/
def errorOf (c : Chunk) (s : String) : Option (Nat × Int) :=
  (restCompile c).bind fun g => kindOf (parse (pipelineEnv (pickyEnv g) ({ g := g, lexers := textLexers } : TEnv Nat) [] 20) 100
    ⟨[], { src := textQueue s, st := 0 }⟩ (textQueue s).sourcePos)

/-- Errors of all kinds a text may give without hooks: `root = 'x', 'y'`. -/
example : errorOf (cSeq [cX, cY]) "x" = some (2, 0) ∧ errorOf (cSeq [cX, cY]) "x x" = some (3, 2) ∧ errorOf (cSeq [cX, cY]) "x y x" = some (4, 4) ∧
    errorOf (cSeq [cX, cY]) "x ?" = some (0, 0) := by decide +kernel

/-- Hypotheses are met. -/
example : ∃ g q0 q e, restCompile (cSeq [cX, cY]) = some g ∧ LexersOf charRe textTokens textLexers ∧ SrcQueue.new = some q0 ∧
    q0.append (some (textSource 1 "x x")) = some q ∧
    parse (pipelineEnv (pickyEnv g) ({ g := g, lexers := textLexers } : TEnv Nat) [] 20) 100 ⟨[], { src := q, st := 0 }⟩ q.sourcePos = .done (.error e) := by
  have h : errorOf (cSeq [cX, cY]) "x x" = some (3, 2) := by decide +kernel
  obtain ⟨g, h1, h2⟩ := Option.bind_eq_some_iff.mp h
  obtain ⟨q0, h3, h4⟩ := textQueue_new (s := "x x") (by simp)
  rw [kindOf.eq_def] at h2
  split at h2
  all_goals first | exact ⟨g, q0, _, _, h1, textLexers_of.1, h3, h4, by assumption⟩ | cases h2

/-- A queue of two sources. -/
def twoQueue (s t : String) : SrcQueue := ((textQueue s).append (some (textSource 2 t))).getD (textQueue s)

/-- Two sources: the wrong token is in the second one, at place 1 of it; the end of the first source is not an end of input. -/
example : ((restCompile (cSeq [cX, cX, cY])).bind fun g =>
      kindOf (parse (pipelineEnv (partEnv g) ({ g := g, lexers := textLexers } : TEnv Nat) [] 20) 100
        ⟨[], { src := twoQueue "x x" " x", st := 0 }⟩ (twoQueue "x x" " x").sourcePos)) = some (3, 1) ∧
    (∀ g, (partEnv g).fullSource = false) ∧ ∃ q0, SrcQueue.new = some q0 ∧ Appended q0 [textSource 1 "x x", textSource 2 " x"] (twoQueue "x x" " x") := by
  obtain ⟨q0, h3, h4⟩ := textQueue_new (s := "x x") (by simp)
  refine ⟨by decide +kernel, fun _ => rfl, q0, h3, .cons h4 (.cons ?_ .nil)⟩
  have : ((textQueue "x x").append (some (textSource 2 " x"))).isSome = true := by decide +kernel
  obtain ⟨q, hq⟩ := Option.isSome_iff_exists.mp this
  rw [twoQueue, hq]
  rfl

end Verif.Props
