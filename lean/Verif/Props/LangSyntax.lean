/-
C53, C54, C55: syntax and meaning of grammar descriptions.
-/
import Verif.Proof.LangComplete
import Verif.Props.LangDef

namespace Verif.Props

open Verif Verif.Model Verif.Model.LangDef Verif.Spec.LangDef Verif.Proof.LangDef

/-- C53: the documented syntax is unambiguous. -/
theorem C53_unambiguous {head head' : List HeadItem} {body body' : List BodyItem} {inp : List (Except LErr LTok)}
    (h : IsDescription head body inp) (h' : IsDescription head' body' inp) : head = head' ∧ body = body' := by
  obtain ⟨ts1, ts2, n, es, rest, rfl, hh, hb, rfl⟩ := h
  obtain ⟨us1, us2, n', es', rest', he, hh', hb', rfl⟩ := h'
  have he := List.map_injective_iff.2 (fun a b (h : (Except.ok a : Except LErr LTok) = .ok b) => by cases h; rfl) he
  have s1 : ∃ t u, ts2 = t :: u ∧ t.kind = .name := by
    cases hb with
    | cons hi _ => cases hi; exact ⟨_, _, rfl, rfl⟩
  have s2 : ∃ t u, us2 = t :: u ∧ t.kind = .name := by
    cases hb' with
    | cons hi _ => cases hi; exact ⟨_, _, rfl, rfl⟩
  obtain ⟨t, u, e1, k1⟩ := s1
  obtain ⟨t', u', e2, k2⟩ := s2
  have he2 := he
  rw [e1, e2] at he2
  obtain ⟨rfl, rfl⟩ := heads_unique hh hh' he2 k1 k2
  have := List.append_cancel_left he
  subst this
  exact ⟨rfl, body_unique hb hb'⟩

/-- C53: an accepted description follows the documented syntax. Missing: names `string` and `token-name`, empty regular expressions
and errors inside layer definitions, for which it is false or not known (see below). -/
theorem C53_syntax_partial {okRe : List Nat → Bool} {fuel : Nat} {inp : List (Except LErr LTok)} {c : Ctx} (hp : Plain inp)
    (h : LangDef.read okRe fuel inp = .done (.ok c)) : ∃ head body, IsDescription head body inp := by
  obtain ⟨head, body, D, hi, -⟩ := accepted hp h
  exact ⟨head, body, hi⟩

/-- C53: nodes and layers of an accepted description are as it says. -/
theorem C53_nodes_partial {okRe : List Nat → Bool} {fuel : Nat} {inp : List (Except LErr LTok)} {c : Ctx} {head : List HeadItem}
    {body : List BodyItem} (hp : Plain inp) (hi : IsDescription head body inp) (h : LangDef.read okRe fuel inp = .done (.ok c)) :
    Nodes head body c := by
  obtain ⟨head', body', D, hi', -, hn, -⟩ := accepted hp h
  obtain ⟨rfl, rfl⟩ := C53_unambiguous hi hi'
  exact hn

/-- C54: tokens of an accepted description are as it says. -/
theorem C54_tokens_partial {okRe : List Nat → Bool} {fuel : Nat} {inp : List (Except LErr LTok)} {c : Ctx} {head : List HeadItem}
    {body : List BodyItem} (hp : Plain inp) (hi : IsDescription head body inp) (h : LangDef.read okRe fuel inp = .done (.ok c)) :
    ∃ D, typeDefs okRe head = some D ∧ c.tokens = enlistLits (headTable head D) (body.flatMap BodyItem.lits) := by
  obtain ⟨head', body', D, hi', hc, -, ht⟩ := accepted hp h
  obtain ⟨rfl, rfl⟩ := C53_unambiguous hi hi'
  exact ⟨D, hc.defs, ht⟩

/-- C55: an accepted description satisfies the documented restrictions. -/
theorem C55_restrictions_partial {okRe : List Nat → Bool} {fuel : Nat} {inp : List (Except LErr LTok)} {c : Ctx} {head : List HeadItem}
    {body : List BodyItem} (hp : Plain inp) (hi : IsDescription head body inp) (h : LangDef.read okRe fuel inp = .done (.ok c)) :
    ∃ D, Correct okRe head body D := by
  obtain ⟨head', body', D, hi', hc, -, ht⟩ := accepted hp h
  obtain ⟨rfl, rfl⟩ := C53_unambiguous hi hi'
  exact ⟨D, hc⟩

/-- C55: a description that satisfies the documented restrictions is accepted in a linear number of steps. What is missing: here no type is
listed in `!group` twice and types that are listed in directives are counted with all the defined types, see `C55_groups_violated` and
`C55_limit_violated`. -/
theorem C55_accepted_partial {okRe : List Nat → Bool} {inp : List (Except LErr LTok)} {head : List HeadItem} {body : List BodyItem}
    {D : List (List Nat × List Nat)} (hp : Plain inp) (hi : IsDescription head body inp) (hc : Correct okRe head body D)
    (hg : (groups head).flatten.Nodup) (hnum : D.length + (enlist [] (head.flatMap HeadItem.mentions)).length < maxTokenType)
    {fuel : Nat} (hfuel : 3 * inp.length + 2 ≤ fuel) :
    ∃ c, LangDef.read okRe fuel inp = .done (.ok c) ∧ Nodes head body c ∧ c.tokens = enlistLits (headTable head D) (body.flatMap BodyItem.lits) := by
  obtain ⟨c, h⟩ := read_run hp hi hc hg hnum hfuel
  obtain ⟨head', body', D', hi', hc', hn, ht⟩ := accepted hp h
  obtain ⟨rfl, rfl⟩ := C53_unambiguous hi hi'
  have := hc.defs
  rw [hc'.defs] at this
  cases this
  exact ⟨c, h, hn, ht⟩

/-- Directives and definitions of tokens of the sample. -/
def descHead : List HeadItem :=
  [.flags .side [bytesOf "s"], .token (bytesOf "s") [.text (bytesOf " +")], .token (bytesOf "n") [.text (bytesOf "a")]]

/-- Nodes of the sample. -/
def descBody : List BodyItem := [.node (bytesOf "root") [.token (bytesOf "n"), .group [.literal (bytesOf "a")] true true]]

theorem descSample_description : IsDescription descHead descBody descSample := by
  have e1 : (⟨.tokenName, bytesOf "$s"⟩ : LTok) = typeTok (bytesOf "s") := by decide +kernel
  have e2 : (⟨.tokenName, bytesOf "$n"⟩ : LTok) = typeTok (bytesOf "n") := by decide +kernel
  have e3 : (⟨.regexp, bytesOf "/ +/"⟩ : LTok) = ⟨.regexp, 47 :: bytesOf " +" ++ [47]⟩ := by decide +kernel
  have e4 : (⟨.regexp, bytesOf "/a/"⟩ : LTok) = ⟨.regexp, 47 :: bytesOf "a" ++ [47]⟩ := by decide +kernel
  have e5 : (⟨.string, bytesOf "'a'"⟩ : LTok) = ⟨.string, 39 :: bytesOf "a" ++ [39]⟩ := by decide +kernel
  refine ⟨[⟨.dir, bytesOf "!side"⟩, ⟨.tokenName, bytesOf "$s"⟩, op 59, ⟨.tokenName, bytesOf "$s"⟩, op 61, ⟨.regexp, bytesOf "/ +/"⟩, op 59,
      ⟨.tokenName, bytesOf "$n"⟩, op 61, ⟨.regexp, bytesOf "/a/"⟩, op 59],
    [⟨.name, bytesOf "root"⟩, op 61, ⟨.tokenName, bytesOf "$n"⟩, op 44, op 123, ⟨.string, bytesOf "'a'"⟩, op 125, op 59], _, _, _, rfl, ?_, ?_, rfl⟩
  · rw [e1, e2, e3, e4]
    exact .cons (.flags .side (.cons rfl .nil)) (.cons (.token _ (by decide +kernel) (by simp) (.cons (show IsPart (.text _) _ from rfl) .nil))
      (.cons (.token _ (by decide +kernel) (by simp) (.cons (show IsPart (.text _) _ from rfl) .nil)) .nil))
  · rw [e2, e5]
    exact .cons (.node _ (.cons (.single (.one (.token _ (by decide +kernel)))) (.last (.single (.one (.curly
      (.last (.single (.one (.literal _ _ ⟨39, rfl⟩)))))))))) .nil

theorem descSample_plain : Plain descSample := by
  intro x hx
  have hm : ∃ t, x = .ok t := by
    obtain ⟨ts1, ts2, -, -, -, he, -⟩ := descSample_description
    rw [he] at hx
    obtain ⟨t, -, rfl⟩ := List.mem_map.1 hx
    exact ⟨t, rfl⟩
  obtain ⟨t, rfl⟩ := hm
  refine ⟨t, rfl, descSample_lexed t hx, ?_, ?_⟩
  · intro hk
    have : ∀ x ∈ descSample, (match x with
      | .ok t => decide (t.kind = .name → t.text ≠ bytesOf "string" ∧ t.text ≠ bytesOf "token-name")
      | _ => true) = true := by decide +kernel
    exact of_decide_eq_true (this _ hx) hk
  · intro hk
    have : ∀ x ∈ descSample, (match x with
      | .ok t => decide (t.kind = .regexp → 2 < t.text.length)
      | _ => true) = true := by decide +kernel
    exact of_decide_eq_true (this _ hx) hk

/-- The hypotheses of the theorems above hold for the sample. -/
example : Plain descSample ∧ IsDescription descHead descBody descSample ∧ ∃ c, LangDef.read (fun _ => true) 70 descSample = .done (.ok c) := by
  refine ⟨descSample_plain, descSample_description, ?_⟩
  have h : (match LangDef.read (fun _ => true) 70 descSample with
    | .done (.ok _) => true
    | _ => false) = true := by decide +kernel
  split at h
  · next c hc => exact ⟨c, hc⟩
  · cases h

/-- The hypotheses of `C55_accepted_partial` hold for the sample. -/
theorem descSample_correct : Plain descSample ∧ IsDescription descHead descBody descSample ∧
    Correct (fun _ => true) descHead descBody [(bytesOf "s", bytesOf " +"), (bytesOf "n", bytesOf "a")] ∧ (groups descHead).flatten.Nodup ∧
    2 + (enlist [] (descHead.flatMap HeadItem.mentions)).length < maxTokenType := by
  refine ⟨descSample_plain, descSample_description, ⟨by decide +kernel, by decide +kernel, by decide +kernel, ?_, by decide +kernel, by decide +kernel⟩,
    by decide +kernel, by decide +kernel⟩
  intro n es h m hm
  simp only [descBody, List.mem_singleton, BodyItem.node.injEq] at h
  obtain ⟨rfl, rfl⟩ := h
  simp only [Expr.typesOf, Expr.types, List.append_nil, List.mem_singleton] at hm
  subst hm
  decide +kernel

/-- Tokens of a description. -/
def dTok (k : Kind) (s : String) : Except LErr LTok := .ok ⟨k, bytesOf s⟩

/-- `!extern token-name; r = 'x';`. -/
def descNamed : List (Except LErr LTok) :=
  [dTok .dir "!extern", dTok .name "token-name", .ok (op 59), dTok .name "r", .ok (op 61), dTok .string "'x'", .ok (op 59)]

/-- C53 does not hold: the name `token-name` is accepted as an argument of a directive and denotes the token type `$oken-name`. -/
theorem C53_name_as_type_violated : (∃ c, LangDef.read (fun _ => true) 30 descNamed = .done (.ok c) ∧ c.tokens.map (·.name) = [bytesOf "oken-name", bytesOf "x"]) ∧
    ¬ ∃ head body, IsDescription head body descNamed := by
  refine ⟨?_, ?_⟩
  · have h : (match LangDef.read (fun _ => true) 30 descNamed with
      | .done (.ok c) => decide (c.tokens.map (·.name) = [bytesOf "oken-name", bytesOf "x"])
      | _ => false) = true := by decide +kernel
    split at h
    · next c hc => exact ⟨c, hc, by simpa using h⟩
    · cases h
  · rintro ⟨head, body, ts1, ts2, n, es, rest, he, hh, hb, rfl⟩
    have he' : [⟨.dir, bytesOf "!extern"⟩, ⟨.name, bytesOf "token-name"⟩, op 59, ⟨.name, bytesOf "r"⟩, op 61, ⟨.string, bytesOf "'x'"⟩, op 59] = ts1 ++ ts2 := by
      refine List.map_injective_iff.2 (fun a b (h : (Except.ok a : Except LErr LTok) = .ok b) => by cases h; rfl) (Eq.trans ?_ he)
      rfl
    cases hh with
    | nil =>
      cases hb with
      | cons hi _ =>
        cases hi
        simp at he'
    | cons hi hr =>
      cases hi with
      | flags d hl =>
        cases hl with
        | nil => simp [op] at he'
        | cons h1 h2 => subst h1; simp [typeTok] at he'
      | group hl =>
        cases hl with
        | nil => simp [op] at he'
        | cons h1 h2 => subst h1; simp [typeTok] at he'
      | reserved hl =>
        cases hl with
        | nil => simp [op] at he'
        | cons h1 h2 =>
          have := isString_kind h1
          simp only [List.cons_append, List.cons.injEq] at he'
          rw [← he'.2.1] at this
          cases this
      | literal hl =>
        cases hl with
        | nil => simp [op] at he'
        | @cons a t _ _ h1 h2 =>
          simp only [List.cons_append, List.cons.injEq] at he'
          cases a with
          | type n => rw [← he'.2.1] at h1; cases h1
          | literal n => rw [← he'.2.1] at h1; cases isString_kind h1
      | layer hl => obtain ⟨us, rfl⟩ := layer_head hl; simp [op] at he'
      | template n _ _ => simp at he'
      | token n _ _ _ => simp [typeTok] at he'

/-- `!reserved string; r = 'x';`. -/
def descReserved : List (Except LErr LTok) :=
  [dTok .dir "!reserved", dTok .name "string", .ok (op 59), dTok .name "r", .ok (op 61), dTok .string "'x'", .ok (op 59)]

/-- C53 does not hold: the name `string` is accepted as a string literal `trin`. -/
theorem C53_name_as_string_violated : ∃ c, LangDef.read (fun _ => true) 30 descReserved = .done (.ok c) ∧
    c.tokens.map (·.name) = [bytesOf "trin", bytesOf "x"] := by
  have h : (match LangDef.read (fun _ => true) 30 descReserved with
    | .done (.ok c) => decide (c.tokens.map (·.name) = [bytesOf "trin", bytesOf "x"])
    | _ => false) = true := by decide +kernel
  split at h
  · next c hc => exact ⟨c, hc, by simpa using h⟩
  · cases h

/-- `@foo bar("\q" 'x'); r = 'x';`: the first string is wrong. -/
def descLayerError : List (Except LErr LTok) :=
  [.ok (op 64), dTok .name "foo", dTok .name "bar", .ok (op 40), .error (.escape .escape), dTok .string "'x'", .ok (op 41), .ok (op 59),
    dTok .name "r", .ok (op 61), dTok .string "'x'", .ok (op 59)]

/-- C53 does not hold: an error in the first argument of a layer command is ignored. -/
theorem C53_layer_error_violated : (∃ c, LangDef.read (fun _ => true) 30 descLayerError = .done (.ok c) ∧
    c.layers = [⟨bytesOf "foo", [⟨bytesOf "bar", [bytesOf "x"]⟩]⟩]) ∧ ¬ ∃ head body, IsDescription head body descLayerError := by
  refine ⟨?_, ?_⟩
  · have h : (match LangDef.read (fun _ => true) 30 descLayerError with
      | .done (.ok c) => decide (c.layers = [⟨bytesOf "foo", [⟨bytesOf "bar", [bytesOf "x"]⟩]⟩])
      | _ => false) = true := by decide +kernel
    split at h
    · next c hc => exact ⟨c, hc, by simpa using h⟩
    · cases h
  · rintro ⟨head, body, ts1, ts2, n, es, rest, he, -⟩
    have : (Except.error (LErr.escape .escape) : Except LErr LTok) ∈ (ts1 ++ ts2).map .ok := by rw [← he]; simp [descLayerError]
    obtain ⟨t, -, h⟩ := List.mem_map.1 this
    cases h

/-- `!group $a; !group $a; $a = /x/; r = $a;`. -/
def descGroups : List (Except LErr LTok) :=
  [dTok .dir "!group", dTok .tokenName "$a", .ok (op 59), dTok .dir "!group", dTok .tokenName "$a", .ok (op 59),
    dTok .tokenName "$a", .ok (op 61), dTok .regexp "/x/", .ok (op 59), dTok .name "r", .ok (op 61), dTok .tokenName "$a", .ok (op 59)]

/-- `$a = /x/; !group $a; !group $a; r = $a;`. -/
def descGroupsLater : List (Except LErr LTok) :=
  [dTok .tokenName "$a", .ok (op 61), dTok .regexp "/x/", .ok (op 59),
    dTok .dir "!group", dTok .tokenName "$a", .ok (op 59), dTok .dir "!group", dTok .tokenName "$a", .ok (op 59),
    dTok .name "r", .ok (op 61), dTok .tokenName "$a", .ok (op 59)]

/-- C55 does not hold: a type may be separated twice if it is defined after that, but not if it is defined before that. -/
theorem C55_groups_violated : (∃ c, LangDef.read (fun _ => true) 30 descGroups = .done (.ok c) ∧ c.tokens.map (·.group) = [2]) ∧
    LangDef.read (fun _ => true) 30 descGroupsLater = .done (.error .reassignedGroup) := by
  refine ⟨?_, ?_⟩
  · have h : (match LangDef.read (fun _ => true) 30 descGroups with
      | .done (.ok c) => decide (c.tokens.map (·.group) = [2])
      | _ => false) = true := by decide +kernel
    split at h
    · next c hc => exact ⟨c, hc, by simpa using h⟩
    · cases h
  · have h : (match LangDef.read (fun _ => true) 30 descGroupsLater with
      | .done (.error .reassignedGroup) => true
      | _ => false) = true := by decide +kernel
    split at h
    · next hc => exact hc
    · cases h

/-- Definitions of `count` types, each listed in `!side` before. -/
def descMany (count : Nat) : List (Except LErr LTok) :=
  dTok .dir "!side" :: (List.range count).map (fun i => .ok (typeTok [97, i])) ++ [.ok (op 59)] ++
    (List.range count).flatMap (fun i => [.ok (typeTok [97, i]), .ok (op 61), dTok .regexp "/x/", .ok (op 59)]) ++
    [dTok .name "r", .ok (op 61), .ok (typeTok []), .ok (op 59)]

/-- C55 does not hold: 32 types are too many if they are listed in a directive before definitions. -/
theorem C55_limit_violated : LangDef.read (fun _ => true) 400 (descMany 32) = .done (.error .tokenTypeNumber) ∧
    (match LangDef.read (fun _ => true) 400 (descMany 31) with | .done (.ok c) => decide (c.tokens.length = 31) | _ => false) = true := by
  refine ⟨?_, by decide +kernel⟩
  have h : (match LangDef.read (fun _ => true) 400 (descMany 32) with
    | .done (.error .tokenTypeNumber) => true
    | _ => false) = true := by decide +kernel
  split at h
  · next hc => exact hc
  · cases h

end Verif.Props
