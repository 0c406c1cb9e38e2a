/-
C60: choice of hooks; C59: which error is reported.
-/
import Verif.Proof.HookChoice
import Verif.Props.Layers

namespace Verif.Props

open Verif.Model Verif.Spec Verif.Proof

variable {η : Type}

/-- C60, layers: hooks of a layer are accepted if and only if all their types are known to the parser, texts may be any.
Nothing panics. Hooks for texts unknown to the grammar only add these texts to the known ones. -/
theorem C60_layer (g : Grammar) (extra : List (List Nat)) (hs : THooks η) (hd : DistinctKeys hs) :
    (newTokenLayer g extra hs = none ↔ ∃ h ∈ hs.tokens, g.tokenName h.1 = none) ∧
    (∀ r, newTokenLayer g extra hs = some r → ∃ more layer, r = some (extra ++ more, layer) ∧
      (layer = none ↔ hs.tokens = [] ∧ hs.literals = [])) := by
  by_cases hne : hs.tokens.length + hs.literals.length > 0
  · have hnil : ¬ (hs.tokens = [] ∧ hs.literals = []) := by
      rintro ⟨h1, h2⟩
      rw [h1, h2] at hne
      simp at hne
    rcases newTokenLayer_slots g extra hs hne hd with ⟨h1, h2⟩ | ⟨h1, more, l, h2, -⟩
    · rw [h2]
      exact ⟨by simpa using h1, by simp⟩
    · rw [h2]
      refine ⟨by simpa using h1, ?_⟩
      rintro r ⟨⟩
      exact ⟨more, some l, rfl, by simpa using hnil⟩
  · have h1 : hs.tokens = [] := List.eq_nil_of_length_eq_zero (by omega)
    have h2 : hs.literals = [] := List.eq_nil_of_length_eq_zero (by omega)
    unfold newTokenLayer
    rw [if_neg hne]
    refine ⟨by simp [h1], ?_⟩
    rintro r ⟨⟩
    exact ⟨[], none, by simp, by simp [h1, h2]⟩

/-- C60, tokens: the hook called for a token of a type with a name is that for its text if the type allows matching against
literals, else that for its type, else that for any type; special tokens have only their own hooks. Other layers (`later`
are texts of their hooks) do not matter. -/
theorem C60_token_hook (env : TEnv η) {extra : List (List Nat)} (hs : THooks η) (hd : DistinctKeys hs) {made later : List (List Nat)}
    {layer : TokenLayer η} (hl : newTokenLayer env.g extra hs = some (some (made, some layer))) (he : env.extra = made ++ later)
    (tok : Token) (hv : env.g.isValidType tok.type = true)
    (hn : 0 ≤ tok.type → ∀ t, env.g.tokens[tok.type.toNat]? = some t → t.flags.literal = false) :
    pickHook env layer tok = some (hookChosen env.g hs tok ((Go.index env.g.tokens tok.type).any fun t => !t.flags.noLiterals)) :=
  pickHook_chosen env hs hd hl he tok hv hn

/-- C60, nodes: hooks of a layer are accepted if and only if all nodes are known; the hook called for a node is that under
its name, else that for any node. -/
theorem C60_node_hook {H : Type} (names : List (List Nat)) (hn : names.Nodup) (hne : [] ∉ names) (hs : List (List Nat × H))
    (hd : (hs.map (·.1)).Nodup) :
    (newNodeLayer names hs (List.replicate (names.length + 1) none) = none ↔ ∃ h ∈ hs, h.1 ∉ names ∧ h.1 ≠ []) ∧
    ∀ r, newNodeLayer names hs (List.replicate (names.length + 1) none) = some r → ∃ layer, r = some layer ∧
      ∀ (i : Nat) (hi : i < names.length), pickNodeHook layer i = some (nodeHookChosen hs names[i]) := by
  by_cases hk : ∀ h ∈ hs, h.1 ∈ names ∨ h.1 = []
  · obtain ⟨l, h1, h2, h3⟩ := newNodeLayer_slots hn hne hs (List.replicate (names.length + 1) none) (by simp) hk hd
    rw [h1]
    refine ⟨⟨by simp, ?_⟩, ?_⟩
    · rintro ⟨h, hh, h4, h5⟩
      exact absurd (hk h hh) (by simp [h4, h5])
    · rintro r ⟨⟩
      refine ⟨l, rfl, fun i hi => ?_⟩
      have hlook : ∀ k : List Nat, hs.lookup k = (hs.find? fun h => h.1 = k).map (·.2) := by
        intro k
        clear hd hk h1 h3
        induction hs with
        | nil => rfl
        | cons x xs ih =>
          obtain ⟨a, b⟩ := x
          by_cases hak : k = a
          · subst hak; simp [List.lookup]
          · rw [List.lookup_cons, List.find?_cons_of_neg (by simpa using fun h => hak h.symm)]
            rw [show (k == a) = false from by simpa using hak]
            exact ih
      have hslot : ∀ (j : Int) (k : List Nat), -1 ≤ j → j < names.length → (∀ m, nodeName names m = some j ↔ m = k) →
          Go.index l (j + 1) = some (hs.lookup k) := by
        intro j k hj1 hj2 hjk
        rw [h3 j hj1 hj2, hlook]
        simp only [hjk]
        cases hs.find? (fun h => h.1 = k) with
        | some x => rfl
        | none =>
          simp only [Option.map_none]
          rw [Go.index, if_pos (by omega), List.getElem?_replicate, if_pos (by omega)]
      have e1 := hslot i names[i] (by omega) (by omega) (fun m => nodeName_eq hn hne m i hi)
      have e2 := hslot (-1) [] (by omega) (by omega) (fun m => nodeName_any hne m)
      rw [show (-1 : Int) + 1 = 0 from rfl] at e2
      rw [pickNodeHook, e1, nodeHookChosen]
      cases hs.lookup names[i] with
      | some x => rfl
      | none => simpa using e2
  · push Not at hk
    obtain ⟨h, hh, h1, h2⟩ := hk
    rw [newNodeLayer_unknown hs _ (by simp) ⟨h, hh, by simp [h1, h2]⟩]
    exact ⟨by simpa using ⟨h.1, ⟨h.2, hh⟩, h1, h2⟩, by simp⟩

/-- C59, errors: if no lexer has found a token then the error of the first lexer that has one is reported, but only if any
type is expected. -/
theorem C59_first_error (env : TEnv η) (fuel : Nat) {q q' : SrcQueue} (types : TokenTypeSet) {rs : List (Except LlxError (Option Token))}
    (h : Called types fuel env.lexers q rs q') (hn : ∀ t, .ok (some t) ∉ rs) :
    fetchToken env fuel q types = .done (q', match (if types = allTokenTypes then firstError rs else none) with
      | some e => .error (.lexer e)
      | none => .ok none) := by
  have key : ∀ {ls : List Lexer} {q q' : SrcQueue} {rs : List (Except LlxError (Option Token))} (_ : Called types fuel ls q rs q')
      (_ : ∀ t, .ok (some t) ∉ rs) (fe : Option LlxError),
      fetchLoop types fuel ls q fe = .done (q', match (if types = allTokenTypes then fe.or (firstError rs) else none) with
        | some e => .error (.lexer e)
        | none => .ok none) := by
    intro ls q q' rs h
    induction h with
    | nil q =>
      intro _ fe
      cases fe with
      | none => rw [fetchLoop]; simp [firstError]
      | some e => rw [fetchLoop]; by_cases ht : types = allTokenTypes <;> simp [ht]
    | @cons l ls q q1 q2 r rs h1 h2 ih =>
      intro hn fe
      have hn' : ∀ t, .ok (some t) ∉ rs := fun t ht => hn t (List.mem_cons_of_mem _ ht)
      rw [fetchLoop, h1, Tree.bindRun]
      match r, hn with
      | .ok (some t), hn => exact absurd List.mem_cons_self (hn t)
      | .ok none, _ =>
        simp only [firstError]
        exact ih hn' fe
      | .error e, _ =>
        simp only [firstError]
        rw [ih hn']
        cases fe <;> rfl
  have := key h hn none
  simpa [fetchToken] using this

/-! Sample: a keyword, names, numbers that are never literals. -/

def choiceGrammar : Grammar where
  tokens := [⟨bytesOf "name", none, 0, {}⟩, ⟨bytesOf "text", none, 0, { noLiterals := true }⟩, ⟨bytesOf "if", none, 0, { literal := true }⟩]
  firsts := []
  tables := ⟨[], [], []⟩

/-- Hooks that can be told one from another. -/
def choiceHooks : THooks Nat where
  tokens := [(bytesOf "name", fun _ _ => .fail 0 1), ([], fun _ _ => .fail 0 2), (bytesOf "-eof-", fun _ _ => .fail 0 3)]
  literals := [(bytesOf "if", fun _ _ => .fail 0 4), (bytesOf "else", fun _ _ => .fail 0 5)]

/-- Number of the hook called for a token. -/
def choiceOf (tok : Token) : Option Nat :=
  match newTokenLayer choiceGrammar [] choiceHooks with
  | some (some (extra, some layer)) =>
    match pickHook { g := choiceGrammar, lexers := [], extra := extra } layer tok with
    | some (some h) => match h 0 tok with
      | .fail _ n => some n
      | _ => none
    | _ => none
  | _ => none

example : DistinctKeys choiceHooks := by unfold DistinctKeys choiceHooks; decide +kernel

example : choiceOf ⟨0, "name", bytesOf "if", ⟨none, 0⟩⟩ = some 4 ∧ choiceOf ⟨0, "name", bytesOf "else", ⟨none, 0⟩⟩ = some 5 ∧
    choiceOf ⟨0, "name", bytesOf "x", ⟨none, 0⟩⟩ = some 1 ∧ choiceOf ⟨1, "text", bytesOf "if", ⟨none, 0⟩⟩ = some 2 ∧
    choiceOf ⟨-2, "-eof-", [], ⟨none, 0⟩⟩ = some 3 ∧ choiceOf ⟨-3, "-eoi-", [], ⟨none, 0⟩⟩ = none := by decide +kernel

/-- A token with the type of a literal (no lexer makes such tokens, but `IsValidType` accepts the type) is given to the hook
for this literal whatever its text is, so C60_token_hook requires other types. -/
example : choiceOf ⟨2, "if", bytesOf "x", ⟨none, 0⟩⟩ = some 4 := by decide +kernel

/-- A layer of node hooks meeting C60_node_hook. -/
example : (match newNodeLayer [bytesOf "root", bytesOf "item"] [(bytesOf "item", 1), ([], 2)] (List.replicate 3 none) with
    | some (some layer) => decide (pickNodeHook layer 0 = some (some 2) ∧ pickNodeHook layer 1 = some (some 1))
    | _ => false) = true ∧
    newNodeLayer [bytesOf "root"] [(bytesOf "item", 1)] (List.replicate 2 none) = none := by decide +kernel

end Verif.Props
