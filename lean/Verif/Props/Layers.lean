/-
Hook layers: the registry (C49), "convert" (C42), "restrict" (C43).
-/
import Verif.Proof.Layers
import Verif.Proof.TokenLayer
import Verif.Props.Pipeline

namespace Verif.Props

open Verif.Model Verif.Spec.Layers Verif.Proof
open Verif.Model.Tree (bindRun)

variable {η : Type}

/-! C42 -/

/-- C42: exactly correct configurations are accepted: all commands are known, types are known and given at most once, there
is at least one conversion, lists of conversions are even and not empty, texts to convert do not repeat. -/
theorem C42_setup (g : Grammar) (cs : List LayerCommand) :
    (∃ hs : THooks η, convertSetup g cs = .ok hs) ↔ ConvertOk g cs := by
  have key := fun v' => convertCommands_ok g cs {} v' (by simp)
  have e : ∀ n, Single ([] :: argumentsOf n cs) ↔ Single (argumentsOf n cs) := fun n => by simp [single_cons]
  simp only [e, List.nil_append, Bool.false_or] at key
  unfold convertSetup
  cases hc : convertCommands g {} cs with
  | error er =>
    simp only [reduceCtorEq, exists_false, false_iff]
    intro ok
    have := (key _).mpr ⟨ok.commands, ok.input, ok.output, ok.distinct, rfl⟩
    rw [hc] at this; cases this
  | ok v =>
    obtain ⟨h1, h2, h3, h4, rfl⟩ := (key v).mp hc
    by_cases hs : ∃ c ∈ cs, c.command = bytesOf "convert"
    · simp only [hs, decide_true, not_true_eq_false, if_false, Except.ok.injEq, exists_eq', true_iff]
      exact ⟨h1, hs, h2, h3, h4⟩
    · simp only [hs, decide_false, Bool.false_eq_true, not_false_eq_true, if_true, reduceCtorEq, exists_false, false_iff]
      intro ok; exact hs ok.some

/-- C42: a layer with a correct configuration can be used by any parser with this grammar; a token of the input type (of
any type if it is not given) having a listed text is replaced by one token with the paired text, any other token is passed
as it is. Nothing else changes. Special tokens are never dropped, so they follow the replacement. -/
theorem C42_convert (g : Grammar) (cs : List LayerCommand) (hs : THooks η) (extra : List (List Nat))
    (h : convertSetup g cs = .ok hs) :
    ∃ layer, newTokenLayer g extra hs = some (some (extra, some layer)) ∧
      ∀ (env : TEnv η) (fuel : Nat) (qs : List (List Token)) (ps : PState η) (tok : Token), env.g = g →
        g.isValidType tok.type = true →
        (¬ (Hooked g cs tok ∧ tok.content ∈ (conversions cs).map (·.1)) →
          handleToken env fuel layer qs ps (some tok) = .done (ps, .ok (true, []))) ∧
        (Hooked g cs tok → ∀ text, (tok.content, text) ∈ conversions cs → ∃ t', Replaces g cs tok text t' ∧
          handleToken env fuel layer qs ps (some tok) =
            .done (ps, .ok (false, if tok.type < 0 then [t', tok] else [t']))) := by
  have ok : ConvertOk g cs := (C42_setup g cs).mp ⟨hs, h⟩
  have key := fun v' => convertCommands_ok g cs {} v' (by simp)
  have e : ∀ n, Single ([] :: argumentsOf n cs) ↔ Single (argumentsOf n cs) := fun n => by simp [single_cons]
  simp only [e, List.nil_append, Bool.false_or] at key
  unfold convertSetup at h
  rw [(key _).mpr ⟨ok.commands, ok.input, ok.output, ok.distinct, rfl⟩] at h
  have hgot := ok.some
  simp only [hgot, decide_true, not_true_eq_false, if_false, Except.ok.injEq] at h
  obtain ⟨k1, k2⟩ := convert_last ok.commands
  obtain ⟨k, hk⟩ := Option.ne_none_iff_exists'.mp k1
  obtain ⟨ko, hko⟩ := Option.ne_none_iff_exists'.mp k2
  have hhooked : ∀ t : Token, Hooked g cs t ↔ if k = -1 then 0 ≤ t.type else t.type = k := fun t => by
    unfold Hooked inputType
    rw [hk]
    split
    · next h => cases h; simp
    · next k' h1 h2 =>
      cases h2
      rw [if_neg (fun h => h1 (by rw [h]))]
    · next h => cases h
  have hrep : ∀ (t : Token) (text : List Nat) (t' : Token), Replaces g cs t text t' ↔ t'.content = text ∧
      t'.pos = (if ∃ c ∈ cs, c.command = bytesOf "save-position" then t.pos else ⟨none, 0⟩) ∧
      t'.type = if (argumentsOf "output-type" cs).getLastD [] = [] then t.type else ko := fun t text t' => by
    unfold Replaces
    rw [hko]
    by_cases ho : (argumentsOf "output-type" cs).getLastD [] = []
    · simp only [if_pos ho, Option.some.injEq]
    · simp only [if_neg ho, Option.some.injEq]
  generalize hin : (argumentsOf "input-type" cs).getLastD [] = iname at *
  generalize hout : (argumentsOf "output-type" cs).getLastD [] = oname at *
  subst h
  obtain ⟨layer, hl1, hl2⟩ := newTokenLayer_spec (η := η) g extra [(iname, _)] (by simp) (by simpa using k1)
  refine ⟨layer, hl1, ?_⟩
  intro env fuel qs ps tok hg hv
  subst hg
  have hpick := pickHook_single env iname _ k hk layer hl2 tok hv
  replace hv := of_decide_eq_true hv
  simp only [eoiTokenType, anyToken] at hv
  have hcond : (tok.type = k ∨ k = -1 ∧ 0 ≤ tok.type) ↔ Hooked env.g cs tok := by
    rw [hhooked]
    split <;> omega
  simp only [handleToken, hpick, orPanic]
  constructor
  · intro hno
    by_cases hk' : Hooked env.g cs tok
    · rw [if_pos (hcond.mpr hk')]
      have hc : tok.content ∉ (conversions cs).map (·.1) := fun hm => hno ⟨hk', hm⟩
      simp only [convertHook, (lookup_none _ _).mpr hc, HookProg.run, bindRun, TC.restore, Except.map]
      simp
    · rw [if_neg (fun h => hk' (hcond.mp h))]
  · intro hk' text htext
    rw [if_pos (hcond.mpr hk')]
    have hlook := (lookup_mem _ ok.distinct tok.content text).mpr htext
    obtain ⟨t', e1, e2, e3, e4⟩ := convertHook_some (η := η)
      (if (if oname = [] ∧ iname ≠ [] then iname else oname) = [] then none else
        some ((env.g.tokenName (if oname = [] ∧ iname ≠ [] then iname else oname)).getD 0,
          if oname = [] ∧ iname ≠ [] then iname else oname))
      { inputTypeName := iname, outputTypeName := oname, replaces := conversions cs,
        savePosition := decide (∃ c ∈ cs, c.command = bytesOf "save-position"), gotReplaces := true } ps.st tok text hlook
    rw [hhooked] at hk'
    refine ⟨t', (hrep _ _ _).mpr ⟨e2, ?_, ?_⟩, ?_⟩
    · rw [e3]; simp only [decide_eq_true_eq]
    · rw [e4]
      by_cases ho : oname = []
      · by_cases hi : iname = []
        · simp [ho, hi]
        · have : k ≠ -1 := fun h => hi (tokenName_any (h ▸ hk))
          rw [if_neg this] at hk'
          simp [ho, hi, hk, hk']
      · simp [ho, hko]
    · dsimp only
      rw [e1]
      simp only [HookProg.run, bindRun, TC.restore, Except.map]
      by_cases hneg : tok.type < 0
      · simp [hneg]
      · simp [hneg]

/-- Grammar with types `op` (0) and `name` (1). -/
def layerGrammar : Grammar where
  tokens := [⟨bytesOf "op", none, 0, {}⟩, ⟨bytesOf "name", none, 0, {}⟩]
  firsts := []
  tables := ⟨[], [], []⟩

/-- `@convert input-type(op) convert("(.", "[", ".)", "]") save-position();` -/
def sampleConvert : List LayerCommand := [
  ⟨bytesOf "input-type", [bytesOf "op"]⟩,
  ⟨bytesOf "convert", [bytesOf "(.", bytesOf "[", bytesOf ".)", bytesOf "]"]⟩,
  ⟨bytesOf "save-position", []⟩]

example : ∃ hs : THooks Unit, convertSetup layerGrammar sampleConvert = .ok hs := by
  rw [C42_setup]
  refine ⟨?_, ?_, ?_, ?_, ?_⟩
  · have h1 : ∀ c ∈ sampleConvert,
        ((c.command = bytesOf "input-type" ∨ c.command = bytesOf "output-type") ∧
          c.arguments = [bytesOf "op"] ∧ layerGrammar.tokenName (bytesOf "op") = some 0) ∨
        (c.command = bytesOf "convert" ∧ c.arguments ≠ [] ∧ c.arguments.length % 2 = 0) ∨
        c.command = bytesOf "save-position" := by decide +kernel
    intro c hc
    rcases h1 c hc with ⟨h, h', h''⟩ | ⟨h, h', h''⟩ | h
    · exact .inl ⟨h, _, h', by simp [h'']⟩
    · exact .inr (.inl ⟨h, h', Nat.even_iff.mpr h''⟩)
    · exact .inr (.inr h)
  · decide +kernel
  · unfold Single; decide +kernel
  · unfold Single; decide +kernel
  · decide +kernel

/-- The token `(.` of type `op` is replaced by `[`; the token of the same text and type `name` is not. -/
example : (match convertSetup (η := Unit) layerGrammar sampleConvert with
    | .ok hs => match newTokenLayer layerGrammar [] hs with
      | some (some (_, some layer)) =>
        (match handleToken ⟨layerGrammar, [], []⟩ 5 layer [] ⟨textQueue "", ()⟩
            (some ⟨0, "op", bytesOf "(.", ⟨none, 3⟩⟩) with
          | .done (_, .ok r) => decide (r = (false, [⟨0, "op", bytesOf "[", ⟨none, 3⟩⟩]))
          | _ => false) &&
        (match handleToken ⟨layerGrammar, [], []⟩ 5 layer [] ⟨textQueue "", ()⟩
            (some ⟨1, "name", bytesOf "(.", ⟨none, 3⟩⟩) with
          | .done (_, .ok r) => decide (r = (true, []))
          | _ => false)
      | _ => false
    | _ => false) = true := by decide +kernel

/-! C43 -/

/-- C43: exactly correct configurations are accepted: all commands are known and have arguments, there are nodes and
forbidding ancestors, nothing is listed twice. -/
theorem C43_setup (cs : List LayerCommand) : (∃ r, restrictSetup cs = .ok r) ↔ RestrictOk cs := by
  have key := fun v' => restrictCommands_ok cs {} v' (by simp) (by simp)
  simp only [List.nil_append, Bool.false_or] at key
  unfold restrictSetup
  cases hc : restrictCommands {} cs with
  | error er =>
    simp only [reduceCtorEq, exists_false, false_iff]
    intro ok
    have := (key _).mpr ⟨ok.commands, ok.distinctNodes, (special_keys cs).mpr ok.distinct, rfl⟩
    rw [hc] at this; cases this
  | ok v =>
    obtain ⟨h1, h2, h3, rfl⟩ := (key v).mp hc
    rw [special_keys] at h3
    by_cases hn : argumentsOf "node" cs = []
    · simp only [hn, List.length_nil, if_true, reduceCtorEq, exists_false, false_iff]
      intro ok; exact ok.nodes hn
    · have hl : (argumentsOf "node" cs).length ≠ 0 := fun h => hn (List.eq_nil_of_length_eq_zero h)
      by_cases hf : argumentsOf "forbid-in" cs = []
      · simp only [hl, if_false, hf, ne_eq, not_true_eq_false, decide_false, Bool.false_eq_true, not_false_eq_true, if_true,
          reduceCtorEq, exists_false, false_iff]
        intro ok; exact ok.forbid hf
      · simp only [hl, if_false, hf, ne_eq, not_false_eq_true, decide_true, not_true_eq_false, Except.ok.injEq, exists_eq',
          true_iff]
        exact ⟨h1, hn, hf, h2, h3⟩

/-- C43: the hook made by an accepted configuration is for listed nodes; it returns an error iff the closest listed ancestor
is a forbidding one. -/
theorem C43_hook (cs : List LayerCommand) (nodes : List (List Nat)) (special : List (List Nat × Bool))
    (h : restrictSetup cs = .ok (nodes, special)) :
    nodes = argumentsOf "node" cs ∧ ∀ stack,
      (restrictHook special stack = .error .wrongToken ↔ Forbidden cs stack) ∧
      (restrictHook special stack = .ok () ↔ ¬ Forbidden cs stack) := by
  have ok := (C43_setup cs).mp ⟨_, h⟩
  have key := fun v' => restrictCommands_ok cs {} v' (by simp) (by simp)
  simp only [List.nil_append, Bool.false_or] at key
  have hs := (special_keys cs).mpr ok.distinct
  have hl : (argumentsOf "node" cs).length ≠ 0 := fun h => ok.nodes (List.eq_nil_of_length_eq_zero h)
  have hf := ok.forbid
  rw [restrictSetup, (key _).mpr ⟨ok.commands, ok.distinctNodes, hs, rfl⟩] at h
  simp only [hl, if_false, hf, ne_eq, not_false_eq_true, decide_true, not_true_eq_false, Except.ok.injEq,
    Prod.mk.injEq] at h
  obtain ⟨rfl, rfl⟩ := h
  exact ⟨rfl, restrictHook_error hs⟩

/-- `@restrict node(break) allow-in(loop) forbid-in(func);` -/
def sampleRestrict : List LayerCommand := [
  ⟨bytesOf "node", [bytesOf "break"]⟩, ⟨bytesOf "allow-in", [bytesOf "loop"]⟩, ⟨bytesOf "forbid-in", [bytesOf "func"]⟩]

example : (match restrictSetup sampleRestrict with
    | .ok (nodes, special) => decide (nodes = [bytesOf "break"] ∧
        restrictHook special [bytesOf "block", bytesOf "func", bytesOf "loop"] = .error .wrongToken ∧
        restrictHook special [bytesOf "block", bytesOf "loop", bytesOf "func"] = .ok ())
    | _ => false) = true := by decide +kernel

/-- C43 (the first half of "a restricted node is rejected", what is missing: nodes must be known): if all listed nodes are
known then the layer gets into the parser and its hook is called exactly for listed nodes (for all nodes if the list
contains the empty name). -/
theorem C43_layer_partial {H : Type} (names : List (List Nat)) (hd : names.Nodup) (hne : [] ∉ names) (cs : List LayerCommand)
    (nodes : List (List Nat)) (special : List (List Nat × Bool)) (h : restrictSetup cs = .ok (nodes, special))
    (known : ∀ n ∈ argumentsOf "node" cs, n ∈ names ∨ n = []) (H0 : H) (user : List (List (Option H))) :
    ∃ layer, addNodeLayers names [nodes.map (·, H0)] user = some (user ++ [layer]) ∧
      ∀ i (hi : i < names.length), pickNodeHook layer i =
        some (if names[i] ∈ argumentsOf "node" cs ∨ [] ∈ argumentsOf "node" cs then some H0 else none) := by
  have ok := (C43_setup cs).mp ⟨_, h⟩
  obtain ⟨rfl, -⟩ := C43_hook cs nodes special h
  obtain ⟨l, h1, h2, h3⟩ := newNodeLayer_same names H0 (argumentsOf "node" cs) (List.replicate (names.length + 1) none)
    (by simp) known
  refine ⟨l, ?_, ?_⟩
  · have hl : (argumentsOf "node" cs).length ≠ 0 := fun h => ok.nodes (List.eq_nil_of_length_eq_zero h)
    rw [addNodeLayers, if_pos (by simp; omega), h1]
    rfl
  · intro i hi
    have hrep : ∀ j : Int, -1 ≤ j → j < names.length →
        Go.index (List.replicate (names.length + 1) (none : Option H)) (j + 1) = some none := by
      intro j hj1 hj2
      rw [Go.index, if_pos (by omega), List.getElem?_replicate, if_pos (by omega)]
    have e1 := h3 i (by omega) (by omega)
    have e2 := h3 (-1) (by omega) (by omega)
    rw [hrep _ (by omega) (by omega)] at e1 e2
    simp only [nodeName_eq hd hne _ i hi, exists_eq_right] at e1
    simp only [nodeName_any hne, exists_eq_right] at e2
    rw [show (-1 : Int) + 1 = 0 from rfl] at e2
    rw [pickNodeHook, e1]
    by_cases hm : names[i] ∈ argumentsOf "node" cs
    · simp [hm]
    · simp only [if_neg hm, Option.bind_some, e2, hm, false_or]
      by_cases hm' : [] ∈ argumentsOf "node" cs <;> simp [hm']

/-- Nodes `prog`, `loop`, `func`, `break`. -/
def sampleNodes : List (List Nat) := [bytesOf "prog", bytesOf "loop", bytesOf "func", bytesOf "break"]

example : sampleNodes.Nodup ∧ [] ∉ sampleNodes ∧ ∀ n ∈ argumentsOf "node" sampleRestrict, n ∈ sampleNodes ∨ n = [] := by
  decide +kernel

/-- `@restrict node(break, brake) forbid-in(func);` -/
def misspelledRestrict : List LayerCommand := [
  ⟨bytesOf "node", [bytesOf "break", bytesOf "brake"]⟩, ⟨bytesOf "forbid-in", [bytesOf "func"]⟩]

/-- C43 is violated: a configuration naming an unknown node is accepted, nothing is reported, and the whole layer is dropped
(so the node `break` is not restricted). -/
theorem C43_unknown_node_violated :
    bytesOf "brake" ∉ sampleNodes ∧
    (match restrictSetup misspelledRestrict with
      | .ok (nodes, _) => decide (nodes = [bytesOf "break", bytesOf "brake"] ∧
          addNodeLayers sampleNodes [nodes.map (·, ())] [] = some [])
      | _ => false) = true := by decide +kernel

/-! C49 -/

/-- C49: after any history of calls the template known by a name is the first one passed with this name; one more call
fails and changes nothing if the name was already used, otherwise it adds its template. -/
theorem C49_register {τ : Type} (history : List (List Nat × τ)) (name : List Nat) (tpl : τ) :
    let known := history.foldl (fun k r => (registerLayer k r.1 r.2).1) []
    known.lookup name = history.lookup name ∧
    (name ∈ history.map (·.1) → registerLayer known name tpl = (known, false)) ∧
    (name ∉ history.map (·.1) → (registerLayer known name tpl).2 = true ∧
      ∀ n, (registerLayer known name tpl).1.lookup n = if n = name then some tpl else known.lookup n) := by
  intro known
  have hk : ∀ n, known.lookup n = history.lookup n := fun n => by
    have := register_all n history []
    simpa using this
  refine ⟨hk name, ?_, ?_⟩
  · intro h
    unfold registerLayer
    rw [hk name]
    cases hl : history.lookup name with
    | none => exact absurd h ((lookup_none _ _).mp hl)
    | some t => rfl
  · intro h
    have hl := (lookup_none history name).mpr h
    have hkn : known.lookup name = none := (hk name).trans hl
    unfold registerLayer
    rw [hkn]
    refine ⟨rfl, ?_⟩
    intro n
    simp only
    rw [List.lookup_append]
    by_cases hn : n = name
    · subst hn; rw [hkn]; simp
    · rw [if_neg hn, List.lookup_cons, show (n == name) = false by simpa using hn]; simp

example : let known := [(bytesOf "a", 1), (bytesOf "b", 2), (bytesOf "a", 3)].foldl (fun k r => (registerLayer k r.1 r.2).1) []
    known = [(bytesOf "a", 1), (bytesOf "b", 2)] ∧ registerLayer known (bytesOf "b") 5 = (known, false) ∧
    registerLayer known (bytesOf "c") 5 = (known ++ [(bytesOf "c", 5)], true) := by decide +kernel

/-- C49: a parser is made iff there is a template for every layer of the grammar and all templates accept their
configurations; an explicitly passed template is preferred to the registered one. -/
theorem C49_templates {τ lay : Type} (setup : τ → List LayerCommand → Except LayerErr lay)
    (templates known : List (List Nat × τ)) (h1 : (templates.map (·.1)).Nodup) (h2 : (known.map (·.1)).Nodup)
    (ds : List LayerDef) (ls : List lay) :
    newLayers setup templates known ds = .ok ls ↔
      List.Forall₂ (fun d l => ∃ t, Chosen templates known d.type t ∧ setup t d.commands = .ok l) ds ls := by
  induction ds generalizing ls with
  | nil => cases ls <;> simp [newLayers]
  | cons d ds ih =>
    have hch : ∀ t, Chosen templates known d.type t ↔ findTemplate templates known d.type = some t := by
      intro t
      unfold Chosen findTemplate
      rw [← lookup_none, ← lookup_mem _ h1, ← lookup_mem _ h2]
      cases templates.lookup d.type <;> simp
    rw [newLayers]
    generalize findTemplate templates known d.type = o at hch
    cases o with
    | none =>
      simp only [reduceCtorEq, false_iff]
      intro h
      cases h with
      | cons hd _ =>
        obtain ⟨t, ht, -⟩ := hd
        simpa using (hch t).mp ht
    | some t =>
      have hone : ∀ l, (∃ t, Chosen templates known d.type t ∧ setup t d.commands = .ok l) ↔ setup t d.commands = .ok l := by
        intro l
        constructor
        · rintro ⟨t', h, h'⟩
          rw [hch] at h; cases h; exact h'
        · intro h; exact ⟨t, (hch t).mpr rfl, h⟩
      simp only [hone] at ih ⊢
      cases hs : setup t d.commands with
      | error e =>
        simp only [reduceCtorEq, false_iff]
        intro h
        cases h with
        | cons hd _ => rw [(hone _).mp hd] at hs; cases hs
      | ok l =>
        simp only
        cases hn : newLayers setup templates known ds with
        | error e =>
          simp only [reduceCtorEq, false_iff]
          intro h
          cases h with
          | cons _ ht => rw [(ih _).mpr ht] at hn; cases hn
        | ok ls' =>
          simp only [Except.ok.injEq]
          constructor
          · rintro rfl
            exact .cons ((hone l).mpr hs) ((ih ls').mp hn)
          · intro h
            cases h with
            | cons hd ht =>
              have e1 := (hone _).mp hd
              rw [hs] at e1; cases e1
              have e2 := (ih _).mpr ht
              rw [hn] at e2; cases e2
              rfl

/-- C49: templates of the last option are used, those of earlier options are forgotten; without options there are registered
templates only. -/
theorem C49_last_option {τ lay : Type} (setup : τ → List LayerCommand → Except LayerErr lay)
    (opts : List (List (List Nat × τ))) (last known : List (List Nat × τ)) (h1 : (last.map (·.1)).Nodup) (h2 : (known.map (·.1)).Nodup)
    (ds : List LayerDef) (ls : List lay) :
    (newLayers setup (layerTemplates (opts ++ [last])) known ds = .ok ls ↔
      List.Forall₂ (fun d l => ∃ t, Chosen last known d.type t ∧ setup t d.commands = .ok l) ds ls) ∧
    (newLayers setup (layerTemplates []) known ds = .ok ls ↔
      List.Forall₂ (fun d l => ∃ t, (d.type, t) ∈ known ∧ setup t d.commands = .ok l) ds ls) := by
  constructor
  · have : layerTemplates (opts ++ [last]) = last := by simp [layerTemplates, List.getLastD_eq_getLast?]
    rw [this]
    exact C49_templates setup last known h1 h2 ds ls
  · rw [layerTemplates, List.getLastD_nil, C49_templates setup [] known (by simp) h2 ds ls]
    simp [Chosen]

/-- C49: the name of a layer without templates is reported unless another layer failed before. -/
theorem C49_unknown {τ lay : Type} (setup : τ → List LayerCommand → Except LayerErr lay)
    (templates known : List (List Nat × τ)) (ds : List LayerDef) (ls : List lay) (d : LayerDef) (rest : List LayerDef)
    (h : newLayers setup templates known ds = .ok ls) (hd : ∀ t, ¬ Chosen templates known d.type t) :
    newLayers setup templates known (ds ++ d :: rest) = .error (.unknownLayer d.type) := by
  induction ds generalizing ls with
  | nil =>
    have e1 : templates.lookup d.type = none := by
      rw [lookup_none]
      intro hm
      obtain ⟨p, hp, hp'⟩ := List.mem_map.mp hm
      exact hd p.2 (.inl (by rw [← hp']; exact hp))
    have e2 : known.lookup d.type = none := by
      rw [lookup_none]
      intro hm
      obtain ⟨p, hp, hp'⟩ := List.mem_map.mp hm
      exact hd p.2 (.inr ⟨(lookup_none _ _).mp e1, by rw [← hp']; exact hp⟩)
    simp [newLayers, findTemplate, e1, e2]
  | cons d' ds ih =>
    rw [newLayers] at h
    rw [List.cons_append, newLayers]
    cases ht : findTemplate templates known d'.type with
    | none => rw [ht] at h; cases h
    | some t =>
      rw [ht] at h
      simp only at h ⊢
      cases hl : setup t d'.commands with
      | error e => rw [hl] at h; cases h
      | ok l =>
        rw [hl] at h
        simp only at h ⊢
        cases hls : newLayers setup templates known ds with
        | error e => rw [hls] at h; cases h
        | ok ls' => rw [ih ls' hls]

/-- Templates are numbers; the template `0` accepts nothing. The explicitly passed template is preferred. -/
def numberSetup (t : Nat) (_ : List LayerCommand) : Except LayerErr Nat := if t = 0 then .error .missingCommand else .ok t

/-- Two options: the template 5 is forgotten, so the registered one is used. -/
example : let known := [(bytesOf "a", 1), (bytesOf "b", 2)]
    (known.map (·.1)).Nodup ∧ (([(bytesOf "b", 7)] : List (List Nat × Nat)).map (·.1)).Nodup ∧
    newLayers numberSetup (layerTemplates ([[(bytesOf "a", 5)]] ++ [[(bytesOf "b", 7)]])) known [⟨bytesOf "a", []⟩, ⟨bytesOf "b", []⟩] =
      newLayers numberSetup [(bytesOf "b", 7)] known [⟨bytesOf "a", []⟩, ⟨bytesOf "b", []⟩] ∧
    newLayers numberSetup (layerTemplates ([[(bytesOf "a", 5)]] ++ [[(bytesOf "b", 7)]])) known [⟨bytesOf "a", []⟩, ⟨bytesOf "b", []⟩] ≠
      newLayers numberSetup [(bytesOf "a", 5)] known [⟨bytesOf "a", []⟩, ⟨bytesOf "b", []⟩] := by decide +kernel

example : newLayers numberSetup [(bytesOf "a", 5)] [(bytesOf "a", 1), (bytesOf "b", 2)]
      [⟨bytesOf "b", []⟩, ⟨bytesOf "a", []⟩] = .ok [2, 5] ∧
    newLayers numberSetup [(bytesOf "a", 0)] [(bytesOf "a", 1), (bytesOf "b", 2)]
      [⟨bytesOf "b", []⟩, ⟨bytesOf "a", []⟩] = .error (.setup .missingCommand) ∧
    newLayers numberSetup [(bytesOf "a", 5)] [(bytesOf "a", 1), (bytesOf "b", 2)]
      [⟨bytesOf "b", []⟩, ⟨bytesOf "c", []⟩] = .error (.unknownLayer (bytesOf "c")) := by decide +kernel

end Verif.Props
