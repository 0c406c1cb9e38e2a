/-
What tokens fetched by lexers of a grammar look like, in any state of sources.
-/
import Verif.Proof.Names
import Verif.Props.NewParser

namespace Verif.Proof

open Verif.Model Verif.Spec Verif.Model.Lexer
open Verif.Model.Tree (bindRun)
open Verif.Props (LexersOf)

/-- The token is a special one, or it has the name of its type and is matched by the expression of its type. -/
def Captured (re : List Nat → Option Matcher) (ts : List GToken) (t : Token) : Prop :=
  t.type = eoiTokenType ∨ t.type = eofTokenType ∨
    ∃ (i : Nat) (gt : GToken) (text : List Nat) (n : Nat), t.type = (i : Int) ∧ ts[i]? = some gt ∧ t.typeName = nameString gt.name ∧
      TypeMatches re ts i text n ∧ t.content = text.take n

theorem groupLoop_given {P : Int → String → List Nat → Prop} {l : Lexer} {src : Src} {content : List Nat}
    {pos : Int} {tts : TokenTypeSet} {e : Int} : ∀ (groups : List (Int × Int)) (g : Nat) (m : Bool) {t : Token} {n : Int},
    (∀ j a b x text, groups[j]? = some (a, b) → a ≥ 0 → l.types[g + j]? = some x → x.type ≠ errorTokenType → Go.slice content a b = some text →
      P x.type x.typeName text) →
    l.groupLoop src content pos tts e groups g m = some (.ok (some t, n)) → P t.type t.typeName t.content
  | [], g, m, t, n, hP, h => by simp [Lexer.groupLoop] at h
  | (a, b) :: groups, g, m, t, n, hP, h => by
    have hP' : ∀ j a b x text, groups[j]? = some (a, b) → a ≥ 0 → l.types[g + 1 + j]? = some x → x.type ≠ errorTokenType →
        Go.slice content a b = some text → P x.type x.typeName text := by
      intro j a b x text h1 h2 h3
      exact hP (j + 1) a b x text (by simpa using h1) h2 (by rw [← h3]; congr 1; omega)
    rw [Lexer.groupLoop] at h
    split at h
    · rename_i hab
      have key : ∀ (ty : Int) (name : String), (∀ text, ty ≠ errorTokenType → Go.slice content a b = some text → P ty name text) →
          (if ty ≥ 0 ∧ tts &&& (1#64 <<< ty.toNat) = 0 then
          l.groupLoop src content pos tts e groups (g + 1) true
        else do
          let text ← Go.slice content a b
          let token : Token := { type := ty, typeName := name, content := text, pos := SrcPos.new (some src) (pos + a) }
          if ty = errorTokenType then return .error (Lexer.wrongTokenError token)
          else return .ok (some token, e)) = some (.ok (some t, n)) → P t.type t.typeName t.content := by
        intro ty name hn h
        split at h
        · exact groupLoop_given _ _ _ hP' h
        · rw [Option.bind_eq_bind, Option.bind_eq_some_iff] at h
          obtain ⟨text, htext, h⟩ := h
          dsimp only at h
          split at h
          · cases h
          · rename_i hty
            cases h; exact hn text hty htext
      cases hg : l.types[g]? with
      | none => rw [hg] at h; exact key _ _ (fun _ h1 => absurd rfl h1) h
      | some x => rw [hg] at h; exact key _ _ (fun text h1 h2 => hP 0 a b x text rfl hab.1 hg h1 h2) h
    · exact groupLoop_given _ _ _ hP' h

theorem group_captured {re : List Nat → Option Matcher} {ts : List GToken} {k : Nat} {ms : List Matcher} (hg : GroupLexer re ts k ms)
    {q q' : SrcQueue} {tts : TokenTypeSet} {t : Token} {b : Bool}
    (h : (Lexer.new (joinedRegexp ms) (groupTypes ts k)).fetch q tts = some ((q', .ok (some t)), b)) : Captured re ts t := by
  unfold Lexer.fetch at h
  dsimp only at h
  split at h
  · split at h
    · cases h
      exact .inl rfl
    · cases h
  · rename_i src hsrc
    split at h
    · simp only [Option.bind_eq_bind, Option.bind_eq_some_iff] at h
      obtain ⟨⟨q1, _⟩, -, t', h1, h⟩ := h
      cases h
      cases h1
      exact .inr (.inl rfl)
    · simp only [Option.bind_eq_bind, Option.bind_eq_some_iff] at h
      obtain ⟨r, h1, h⟩ := h
      cases r with
      | error e => cases h
      | ok r =>
        obtain ⟨tok, n⟩ := r
        cases h
        unfold Lexer.matchToken at h1
        rw [Option.bind_eq_bind, Option.bind_eq_some_iff] at h1
        obtain ⟨c, -, h1⟩ := h1
        split at h1
        · cases h1
        · cases h1
        · rename_i s e groups hre
          split at h1
          · cases h1
          · refine .inr (.inr ?_)
            have hre : joinedRegexp ms c = some ((s, e) :: groups) := hre
            refine groupLoop_given (P := fun ty name content => ∃ (i : Nat) (gt : GToken) (text : List Nat) (n : Nat), ty = (i : Int) ∧
              ts[i]? = some gt ∧ name = nameString gt.name ∧ TypeMatches re ts i text n ∧ content = text.take n) _ _ _ ?_ h1
            intro j a b' x text h2 h3 h4 h5 h6
            rcases joined_match hre with ⟨-, -, -, rfl⟩ | ⟨k', n', hk, hlt, -, -, rfl⟩
            · simp at h2
            · obtain ⟨hj, h7⟩ := altGroups_at h2
              by_cases hjk : j = k'
              · rw [if_pos hjk] at h7
                cases h7
                obtain ⟨j', m, h8, hm, hn, -⟩ := firstAlternative_spec hk
                rw [Nat.zero_add] at h8
                subst hjk h8
                obtain ⟨y, hy1, hy2⟩ := hg.at.2 _ m hm
                obtain ⟨gt, ht, hname, hr, -⟩ := members_at hy1
                have h9 := new_types (joinedRegexp ms) (groupTypes ts k) j
                rw [groupTypes_at hy1] at h9
                rw [Nat.zero_add] at h4
                split at h9
                · rename_i t' name' h10
                  split at h10
                  · cases h10
                    rw [h4] at h9
                    obtain ⟨-, h9⟩ := h9
                    cases h9
                    refine ⟨y.1, gt, c, n', rfl, ht, by rw [hname], ⟨gt, _, m, ht, hr, hy2, hn⟩, ?_⟩
                    unfold Go.slice at h6
                    split at h6
                    · cases h6; simp
                    · cases h6
                  · cases h10
                · rcases h9 with h9 | ⟨name, h9⟩
                  · rw [h4] at h9; cases h9
                  · rw [h4] at h9; cases h9; exact absurd rfl h5
              · rw [if_neg hjk] at h7
                cases h7
                omega

theorem nextOf_captured {re : List Nat → Option Matcher} {ts : List GToken} {k : Nat} {ms : List Matcher} (hg : GroupLexer re ts k ms) {fuel : Nat}
    {q q' : SrcQueue} {tts : TokenTypeSet} {t : Token}
    (h : (Lexer.new (joinedRegexp ms) (groupTypes ts k)).nextOf fuel q tts = .done (q', .ok (some t))) : Captured re ts t := by
  unfold Lexer.nextOf at h
  split at h
  · cases h
  · induction fuel generalizing q with
    | zero => cases h
    | succ fuel ih =>
      rw [Lexer.nextOfLoop] at h
      split at h
      · cases h
      · cases h
      · rename_i h1
        cases h
        exact group_captured hg h1
      · split at h
        · exact ih h
        · cases h

/-- Tokens are captured ones. -/
theorem fetchLoop_captured {re : List Nat → Option Matcher} {ts : List GToken} {ls : List Lexer}
    (hl : ∀ l ∈ ls, ∃ k ms, GroupLexer re ts k ms ∧ l = Lexer.new (joinedRegexp ms) (groupTypes ts k)) {types : TokenTypeSet} {fuel : Nat}
    {src src' : SrcQueue} {e : Option LlxError} {t : Token} (h : fetchLoop types fuel ls src e = .done (src', .ok (some t))) : Captured re ts t := by
  induction ls generalizing src e with
  | nil =>
    unfold fetchLoop at h
    split at h
    · split at h <;> cases h
    · cases h
  | cons l ls ih =>
    rw [fetchLoop, bindRun_done] at h
    obtain ⟨⟨q, r⟩, h1, h⟩ := h
    have hl' := fun l' (h : l' ∈ ls) => hl l' (List.mem_cons_of_mem _ h)
    rcases r with r | _ | r
    · exact ih hl' h
    · exact ih hl' h
    · cases h
      obtain ⟨k, ms, h2, rfl⟩ := hl l (List.mem_cons_self ..)
      exact nextOf_captured h2 h1

theorem pull_captured {re : List Nat → Option Matcher} {ts : List GToken} {σ η : Type} (env : PEnv σ) {tenv : TEnv η}
    (hl : LexersOf re ts tenv.lexers) {n : Nat} {ls ls' : LState η} {types : TokenTypeSet} {t : Token}
    (h : (pipelineEnv env tenv [] n).pull ls types = .done (ls', .ok (some t))) : Captured re ts t := by
  have h : bindRun (fetchToken tenv n ls.ps.src types) (fun r => .done ({ ls with ps := { ls.ps with src := r.1 } }, r.2)) =
    .done (ls', .ok (some t)) := h
  rw [bindRun_done] at h
  obtain ⟨⟨q, r⟩, h1, h⟩ := h
  cases h
  refine fetchLoop_captured (ls := tenv.lexers) ?_ h1
  intro l hm
  obtain ⟨k, hk⟩ := List.getElem?_of_mem hm
  obtain ⟨ms, h3, h4⟩ := hl.groups.2 k l hk
  exact ⟨_, ms, h3, h4⟩

end Verif.Proof
