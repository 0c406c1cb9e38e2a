/-
The parsing loop builds a parse tree and tells node hooks about it.
-/
import Mathlib.Data.List.ReduceOption
import Verif.Proof.ParseTokens
import Verif.Spec.ParseTree

namespace Verif.Proof

open Verif.Model Verif.Spec
open Verif.Model.Tree (bindRun)

variable {σ : Type}

theorem leavesOf_append (a b : List Item) : leavesOf (a ++ b) = leavesOf a ++ leavesOf b := by
  induction a with
  | nil => rfl
  | cons i is ih => simp [leavesOf, ih]

theorem leavesOf_toks (ts : List Token) : leavesOf (ts.map Item.tok) = ts := by
  induction ts with
  | nil => rfl
  | cons t ts ih => simp [leavesOf, Item.leaves, ih]

theorem liveHooks_eq (hooks : List (Option Nat)) (f : Nat → Nat → Event) :
    (liveHooks hooks).map (fun h => f h.1 h.2) = told f 0 hooks := by
  have : ∀ (l : Nat), ((hooks.zipIdx l).filterMap fun h => h.1.map fun i => (h.2, i)).map (fun h => f h.1 h.2) =
      told f l hooks := by
    induction hooks with
    | nil => intro l; rfl
    | cons h hs ih =>
      intro l
      cases h with
      | none => simp only [List.zipIdx_cons, told]; rw [← ih (l + 1)]; simp
      | some i => simp only [List.zipIdx_cons, told]; rw [← ih (l + 1)]; simp
  exact this 0

theorem send_spec {env : PEnv σ} (es : List Event) {log log' : List Event} (h : send env es log = .ok log') :
    Calls env log es log' := by
  induction es generalizing log with
  | nil =>
    cases h
    exact ⟨by simp, fun a e b h => by simp at h⟩
  | cons e es ih =>
    rw [send] at h
    split at h
    · cases h
    · rename_i v hv
      obtain ⟨h1, h2⟩ := ih h
      refine ⟨by rw [h1]; simp, fun a e' b hab => ?_⟩
      cases a with
      | nil =>
        simp only [List.nil_append, List.cons.injEq] at hab
        obtain ⟨rfl, rfl⟩ := hab
        exact ⟨v, by simpa using hv⟩
      | cons a as =>
        simp only [List.cons_append, List.cons.injEq] at hab
        obtain ⟨rfl, hab⟩ := hab
        obtain ⟨w, hw⟩ := h2 as e' b hab
        exact ⟨w, by simpa using hw⟩

theorem calls_append {env : PEnv σ} {log es1 es2 log'} (h : Calls env log (es1 ++ es2) log') :
    Calls env log es1 (log ++ es1) ∧ Calls env (log ++ es1) es2 log' := by
  obtain ⟨h1, h2⟩ := h
  refine ⟨⟨rfl, fun a e b hab => ?_⟩, by simp [h1], fun a e b hab => ?_⟩
  · exact h2 a e (b ++ es2) (by rw [hab]; simp)
  · obtain ⟨v, hv⟩ := h2 (es1 ++ a) e b (by rw [hab]; simp)
    exact ⟨v, by simpa using hv⟩

theorem makeHooks_spec {env : PEnv σ} {index : Nat} {tok : Option Token} (ls : List Nat) {log log' : List Event}
    {hooks : List (Option Nat)} (h : makeHooks env index tok ls log = .ok (hooks, log')) :
    Makes env index tok ls log hooks log' := by
  induction ls generalizing log hooks with
  | nil => cases h; exact .nil
  | cons l ls ih =>
    rw [makeHooks] at h
    split at h
    · rename_i hh
      split at h
      · cases h
      · rename_i b hb
        split at h
        · cases h
        · rename_i r hr
          cases h
          have := ih (hooks := r.1) (log := log ++ [.make l index tok]) (by rw [hr])
          cases b with
          | true => exact .made hh hb this
          | false => exact .absent hh hb this
    · rename_i hh
      split at h
      · cases h
      · rename_i r hr
        cases h
        exact .unhooked (by simpa using hh) (ih (by rw [hr]))

/-- The value of `lastResult` after a node has been ended. -/
def lastOf (env : PEnv σ) (l : Nat) (hooks results : List (Option Nat)) (last : Option Nat) : Option Nat :=
  if l = 0 ∧ env.watchNodes then
    match hooks, results with
    | some _ :: _, r :: _ => r
    | _, _ => last
  else last

theorem endHooks_spec {env : PEnv σ} (hooks : List (Option Nat)) (l : Nat) {log log' : List Event} {last last' : Option Nat}
    {results : List (Option Nat)} (h : endHooks env (hooks.zipIdx l) log last = .ok (results, log', last')) :
    Ends env l hooks log results log' ∧ last' = lastOf env l hooks results last := by
  induction hooks generalizing l log last results with
  | nil => cases h; exact ⟨.nil, by simp [lastOf]⟩
  | cons hk hs ih =>
    rw [List.zipIdx_cons] at h
    have hsucc : ∀ a b c, lastOf env (l + 1) a b c = c := fun a b c => by simp [lastOf]
    cases hk with
    | none =>
      rw [endHooks] at h
      split at h
      · cases h
      · rename_i r hr
        obtain ⟨rs, lg, la⟩ := r
        cases h
        obtain ⟨h1, h2⟩ := ih (l + 1) (results := rs) (log := log) (last := last) (by rw [hr])
        refine ⟨.none h1, ?_⟩
        rw [h2, hsucc]
        unfold lastOf
        split <;> rfl
    | some i =>
      rw [endHooks] at h
      split at h
      · cases h
      · rename_i res hres
        split at h
        · cases h
        · rename_i r hr
          obtain ⟨rs, lg, la⟩ := r
          cases h
          obtain ⟨h1, h2⟩ := ih (l + 1) (results := rs) (log := log ++ [.endNode l i])
            (last := if l = 0 ∧ env.watchNodes then res else last) (by rw [hr])
          refine ⟨.some hres h1, ?_⟩
          rw [h2, hsucc, lastOf]

/-- Nodes on the stack (the first one is the top), their content and initial tokens, and calls of hooks made so far. -/
inductive Open (env : PEnv σ) (P : Option Token → Int → Rule → Prop) (st0 : Option Token) :
    List NodeRec → List (List Item × Option Token) → List Event → Prop
  | root {n its log1 log} {f : Nat} : n.index = rootNode →
      Makes env n.index st0 (List.range env.layers) [] n.hooks log1 → ItemsRun env n.hooks its log1 log →
      env.g.firsts[n.index]? = some f → Walk env.g P f its n.state → Open env P st0 [n] [(its, st0)] log
  | nested {n p : NodeRec} {rest its st infos log0 log1 log2 log r} {s1 : Int} {f : Nat} :
      Open env P st0 ({ p with state := s1 } :: rest) infos log0 → P st s1 r → r.node = (n.index : Int) →
      p.state = after r s1 → Calls env log0 (told (fun l i => .newNode l i n.index st) 0 p.hooks) log1 →
      Makes env n.index st (List.range env.layers) log1 n.hooks log2 → ItemsRun env n.hooks its log2 log →
      env.g.firsts[n.index]? = some f → Walk env.g P f its n.state →
      Open env P st0 (n :: p :: rest) ((its, st) :: infos) log

/-- Tokens of unfinished nodes. -/
def openLeaves (infos : List (List Item × Option Token)) : List Token := infos.reverse.flatMap fun i => leavesOf i.1

section

variable {env : PEnv σ} {P : Option Token → Int → Rule → Prop} {st0 : Option Token}

/-- The content of the top node grows. -/
theorem Open.extend {n n' : NodeRec} {rest infos log its its' st log'} (h : Open env P st0 (n :: rest) ((its, st) :: infos) log)
    (hi : n'.index = n.index) (hh : n'.hooks = n.hooks)
    (hw : ∀ f : Nat, Walk env.g P f its n.state → Walk env.g P f its' n'.state)
    (hr : ∀ log1, ItemsRun env n.hooks its log1 log → ItemsRun env n.hooks its' log1 log') :
    Open env P st0 (n' :: rest) ((its', st) :: infos) log' := by
  cases h with
  | root h1 h2 h3 h4 h5 =>
    exact .root (by rw [hi, h1]) (by rw [hi, hh]; exact h2) (by rw [hh]; exact hr _ h3) (by rw [hi]; exact h4) (hw _ h5)
  | nested h1 h2 h3 h4 h5 h6 h7 h8 h9 =>
    exact .nested h1 h2 (by rw [hi]; exact h3) h4 (by rw [hi]; exact h5) (by rw [hi, hh]; exact h6)
      (by rw [hh]; exact hr _ h7) (by rw [hi]; exact h8) (hw _ h9)

theorem Open.info {stack infos log} (h : Open env P st0 stack infos log) :
    ∃ its st infos', infos = (its, st) :: infos' := by
  cases h with
  | root => exact ⟨_, _, _, rfl⟩
  | nested => exact ⟨_, _, _, rfl⟩

/-- Side tokens are handed to the top node. -/
theorem Open.sides {n n' : NodeRec} {rest infos log its st log'} (ts : List Token)
    (h : Open env P st0 (n :: rest) ((its, st) :: infos) log) (hi : n'.index = n.index) (hh : n'.hooks = n.hooks)
    (hs : n'.state = n.state) (ht : ∀ t ∈ ts, env.g.isSideType t.type = true)
    (hc : Calls env log (ts.flatMap fun t => told (fun l i => .token l i t) 0 n.hooks) log') :
    Open env P st0 (n' :: rest) ((its ++ ts.map Item.tok, st) :: infos) log' := by
  induction ts generalizing n its log with
  | nil =>
    obtain ⟨h1, -⟩ := hc
    simp only [List.flatMap_nil, List.append_nil] at h1
    subst h1
    exact h.extend hi hh (by simp [hs]) (by simp)
  | cons t ts ih =>
    rw [List.flatMap_cons] at hc
    obtain ⟨hc1, hc2⟩ := calls_append hc
    have h2 : Open env P st0 (n :: rest) ((its ++ [Item.tok t], st) :: infos) _ :=
      h.extend rfl rfl (fun f hw => .side hw (ht t (by simp))) (fun log1 hr => .tok hr hc1)
    have := ih h2 hi hh hs (fun t ht' => ht t (by simp [ht'])) hc2
    simpa using this

theorem sideEvents_eq (n : NodeRec) :
    sideEvents n = n.sides.flatMap fun t => told (fun l i => .token l i t) 0 n.hooks := by
  unfold sideEvents tokenEvents
  congr 1
  funext t
  exact liveHooks_eq n.hooks (fun l i => .token l i t)

theorem tokenEvents_eq (hooks : List (Option Nat)) (t : Token) :
    tokenEvents hooks t = told (fun l i => .token l i t) 0 hooks :=
  liveHooks_eq hooks (fun l i => .token l i t)

/-- A nested node is closed. -/
theorem Open.close {n p : NodeRec} {rest its st pits pst infos log results log3 log4}
    (h : Open env P st0 (n :: p :: rest) ((its, st) :: (pits, pst) :: infos) log) (hn : n.state = -1)
    (he : Ends env 0 n.hooks log results log3)
    (hc : Calls env log3 (told (fun l i => .handleNode l i n.index ((results[l]?).getD none)) 0 p.hooks) log4) :
    Open env P st0 (p :: rest) ((pits ++ [.node n.index st its], pst) :: infos) log4 := by
  cases h with
  | nested h1 h2 h3 h4 h5 h6 h7 h8 h9 =>
    refine h1.extend rfl rfl (fun f hw => ?_) (fun log1 hr => .node hr h5 (.mk h6 h7 he) hc)
    rw [h4]
    exact .node hw h2 h3 h8 (by rw [← hn]; exact h9)

end

theorem openLeaves_cons (its : List Item) (st : Option Token) (infos : List (List Item × Option Token)) :
    openLeaves ((its, st) :: infos) = openLeaves infos ++ leavesOf its := by
  simp [openLeaves]

/-- The root node is complete: notifications, rules and the result. -/
def Closed (env : PEnv σ) (P : Option Token → Int → Rule → Prop) (st0 : Option Token) (its : List Item) (log : List Event)
    (last : Option Nat) : Prop :=
  ∃ hooks results, NodeRun env rootNode st0 its [] hooks results log ∧
    (∃ f : Nat, env.g.firsts[rootNode]? = some f ∧ Walk env.g P f its (-1)) ∧
    (env.watchNodes = true → ∀ i hs, hooks = some i :: hs → ∃ rs, results = last :: rs)

/-- Finished items of unfinished nodes are tidy, and so are the beginnings of nested ones. -/
def Below (g : Grammar) : List (List Item × Option Token) → Prop
  | [] => True
  | (its, st) :: outer => (∀ x ∈ its, Tidy g x) ∧
      (outer ≠ [] → ∀ t, st = some t → g.isSideType t.type = false → Front g its) ∧ Below g outer

/-- Places of side tokens of the top node: it does not end with one; if a nested node is still empty, then no side tokens
wait for it, and the current token is the one the node was entered with. -/
def Placed (g : Grammar) (cur : Option (Option Token)) (sides : List Token) (infos : List (List Item × Option Token)) :
    Prop :=
  Below g infos ∧ ∀ its st outer, infos = (its, st) :: outer → Back g its ∧
    (outer ≠ [] → ∀ t, st = some t → g.isSideType t.type = false → its = [] → sides = [] ∧ cur = some (some t))

theorem back_node (g : Grammar) (its : List Item) (i : Nat) (st : Option Token) (l : List Item) :
    Back g (its ++ [.node i st l]) := by
  intro t a h
  have := List.append_inj_right' h rfl
  simp at this

theorem front_append {g : Grammar} {its : List Item} (h : Front g its) {l : List Item} (hl : its = [] → Front g l) :
    Front g (its ++ l) := by
  cases its with
  | nil => exact hl rfl
  | cons x xs =>
    intro t a ha
    simp only [List.cons_append, List.cons.injEq] at ha
    exact h t xs (by rw [ha.1])

/-- A nested node is closed. -/
theorem Placed.close {g : Grammar} {cur : Option (Option Token)} {sides : List Token} {its pits : List Item}
    {st pst : Option Token} {infos : List (List Item × Option Token)}
    (h : Placed g cur sides ((its, st) :: (pits, pst) :: infos)) (i : Nat) :
    Placed g cur sides ((pits ++ [.node i st its], pst) :: infos) := by
  obtain ⟨⟨h1, h2, h3, h4, h5⟩, h6⟩ := h
  obtain ⟨h7, -⟩ := h6 _ _ _ rfl
  refine ⟨⟨?_, ?_, h5⟩, ?_⟩
  · intro x hx
    rcases List.mem_append.mp hx with hx | hx
    · exact h3 x hx
    · rw [List.mem_singleton.mp hx]
      exact .node (h2 (by simp)) h7 h1
  · intro ho t ht hs
    refine front_append (h4 ho t ht hs) (fun _ => ?_)
    intro t' a ha
    simp at ha
  · intro its' st' outer he
    simp only [List.cons.injEq, Prod.mk.injEq] at he
    obtain ⟨⟨rfl, rfl⟩, rfl⟩ := he
    exact ⟨back_node _ _ _ _ _, fun _ _ _ _ h => by simp at h⟩

/-- The content of the top node grows. -/
theorem Placed.grow {g : Grammar} {cur cur' : Option (Option Token)} {sides sides' : List Token} {its l : List Item}
    {st : Option Token} {infos : List (List Item × Option Token)} (h : Placed g cur sides ((its, st) :: infos))
    (ht : ∀ x ∈ l, Tidy g x) (hb : Back g (its ++ l)) (hne : l ≠ [])
    (hf : infos ≠ [] → ∀ t, st = some t → g.isSideType t.type = false → its = [] → Front g l) :
    Placed g cur' sides' ((its ++ l, st) :: infos) := by
  obtain ⟨⟨h1, h2, h3⟩, h4⟩ := h
  refine ⟨⟨?_, ?_, h3⟩, ?_⟩
  · intro x hx
    rcases List.mem_append.mp hx with hx | hx
    · exact h1 x hx
    · exact ht x hx
  · intro ho t hs hn
    exact front_append (h2 ho t hs hn) (hf ho t hs hn)
  · intro its' st' outer he
    simp only [List.cons.injEq, Prod.mk.injEq] at he
    obtain ⟨⟨rfl, rfl⟩, rfl⟩ := he
    exact ⟨hb, fun _ _ _ _ h => absurd (List.append_eq_nil_iff.mp h).2 hne⟩

/-- Side tokens come after a token that is not one. -/
theorem Placed.side {g : Grammar} {sides sides' : List Token} {infos : List (List Item × Option Token)} {t : Token}
    {cur : Option (Option Token)} (h : Placed g (some (some t)) sides infos) (hs : g.isSideType t.type = true) :
    Placed g cur sides' infos := by
  refine ⟨h.1, fun its st outer he => ?_⟩
  obtain ⟨h1, h2⟩ := h.2 its st outer he
  refine ⟨h1, fun ho t' ht hn hi => ?_⟩
  obtain ⟨-, h3⟩ := h2 ho t' ht hn hi
  cases h3
  rw [hs] at hn
  cases hn

theorem Placed.noToken {g : Grammar} {sides sides' : List Token} {infos : List (List Item × Option Token)}
    {cur : Option (Option Token)} (h : Placed g (some none) sides infos) : Placed g cur sides' infos := by
  refine ⟨h.1, fun its st outer he => ?_⟩
  obtain ⟨h1, h2⟩ := h.2 its st outer he
  refine ⟨h1, fun ho t' ht hn hi => ?_⟩
  obtain ⟨-, h3⟩ := h2 ho t' ht hn hi
  cases h3

theorem Placed.start {g : Grammar} {sides : List Token} {infos : List (List Item × Option Token)}
    (cur : Option (Option Token)) (h : Placed g none sides infos) : Placed g cur sides infos := by
  refine ⟨h.1, fun its st outer he => ?_⟩
  obtain ⟨h1, h2⟩ := h.2 its st outer he
  refine ⟨h1, fun ho t' ht hn hi => ?_⟩
  obtain ⟨-, h3⟩ := h2 ho t' ht hn hi
  cases h3

/-- A nested node is opened; side tokens waiting are given to the outer one. -/
theorem Placed.push {g : Grammar} {cur cur' : Option (Option Token)} {sides : List Token} {its : List Item}
    {st tok : Option Token} {infos : List (List Item × Option Token)} (h : Placed g cur sides ((its, st) :: infos))
    (hc : ∀ t, tok = some t → cur' = some tok) :
    Placed g cur' [] (([], tok) :: (its ++ sides.map Item.tok, st) :: infos) := by
  obtain ⟨⟨h1, h2, h3⟩, h4⟩ := h
  obtain ⟨h5, h6⟩ := h4 _ _ _ rfl
  refine ⟨⟨by simp, fun _ _ _ _ => fun t a h => by simp at h, ?_, ?_, h3⟩, ?_⟩
  · intro x hx
    rcases List.mem_append.mp hx with hx | hx
    · exact h1 x hx
    · obtain ⟨t, -, rfl⟩ := List.mem_map.mp hx
      exact .tok
  · intro ho t hs hn
    refine front_append (h2 ho t hs hn) (fun hi => ?_)
    rw [(h6 ho t hs hn hi).1]
    intro t a h
    simp at h
  · intro its' st' outer he
    simp only [List.cons.injEq, Prod.mk.injEq] at he
    obtain ⟨⟨rfl, rfl⟩, rfl⟩ := he
    exact ⟨fun t a h => by simp at h, fun _ t ht _ _ => ⟨rfl, by rw [hc t ht, ht]⟩⟩

/-- An ordinary token is added. -/
theorem Placed.token {g : Grammar} {cur cur' : Option (Option Token)} {sides : List Token} {its : List Item}
    {st : Option Token} {t : Token} {infos : List (List Item × Option Token)} (h : Placed g cur sides ((its, st) :: infos))
    (ht : g.isSideType t.type = false) :
    Placed g cur' [] (((its ++ sides.map Item.tok) ++ [.tok t], st) :: infos) := by
  rw [List.append_assoc]
  refine h.grow ?_ ?_ (by simp) ?_
  · intro x hx
    rcases List.mem_append.mp hx with hx | hx
    · obtain ⟨t, -, rfl⟩ := List.mem_map.mp hx
      exact .tok
    · rw [List.mem_singleton.mp hx]
      exact .tok
  · intro t' a ha
    rw [← List.append_assoc] at ha
    have := List.append_inj_right' ha rfl
    simp only [List.cons.injEq, Item.tok.injEq, and_true] at this
    rw [← this]
    exact ht
  · intro ho t' hs hn hi
    rw [((h.2 _ _ _ rfl).2 ho t' hs hn hi).1]
    intro t'' a ha
    simp only [List.map_nil, List.nil_append, List.cons.injEq, Item.tok.injEq] at ha
    rw [← ha.1]
    exact ht

theorem popLoop_spec {env : PEnv σ} {P : Option Token → Int → Rule → Prop} {st0 : Option Token} {sides : List Token}
    (hsides : ∀ t ∈ sides, env.g.isSideType t.type = true) (stack : List NodeRec) {infos : List (List Item × Option Token)}
    {log log' : List Event} {last last' : Option Nat} {stack' : List NodeRec} (ho : Open env P st0 stack infos log)
    {cur : Option (Option Token)} (hpl : Placed env.g cur sides infos) (h : popLoop env sides stack log last = .ok (stack', log', last')) :
    (stack' = [] ∧ ∃ its, Closed env P st0 its log' last' ∧ leavesOf its = openLeaves infos ++ sides ∧
      ∀ x ∈ its, Tidy env.g x) ∨
    ∃ n rest infos', stack' = { n with sides := sides } :: rest ∧ n :: rest <:+ stack ∧
      Open env P st0 (n :: rest) infos' log' ∧ openLeaves infos' = openLeaves infos ∧ Placed env.g cur sides infos' := by
  induction stack generalizing infos log last with
  | nil => cases ho
  | cons node rest ih =>
    rw [popLoop.eq_def] at h
    dsimp only at h
    split at h
    · cases h
      exact .inr ⟨node, rest, infos, rfl, List.suffix_refl _, ho, rfl, hpl⟩
    · rename_i hn
      have hn : node.state = -1 := by simpa [finalState] using hn
      split at h
      · cases h
      · rename_i log1 hlog1
        split at h
        · cases h
        · rename_i results log2 last2 hend
          obtain ⟨he1, he2⟩ := endHooks_spec node.hooks 0 hend
          cases rest with
          | nil =>
            dsimp only at h
            simp only [List.isEmpty_nil, if_true] at hlog1
            cases h
            left
            obtain ⟨its, st, infos', rfl⟩ := ho.info
            have hcalls := send_spec _ hlog1
            have hev : sides.flatMap (tokenEvents node.hooks) =
                sides.flatMap fun t => told (fun l i => .token l i t) 0 node.hooks := by
              congr 1; funext t; exact tokenEvents_eq _ _
            rw [hev] at hcalls
            have ho2 := Open.sides sides ho (n' := node) rfl rfl rfl hsides hcalls
            cases ho2 with
            | root h1 h2 h3 h4 h5 =>
              refine ⟨rfl, _, ⟨node.hooks, results, .mk (by rw [← h1]; exact h2) h3 he1, ⟨_, by rw [← h1]; exact h4, by rw [← hn]; exact h5⟩, ?_⟩, ?_, ?_⟩
              · intro hw i hs hhooks
                rw [hhooks] at he1 he2
                cases he1 with
                | some ha hb =>
                  simp [lastOf, hw] at he2
                  exact ⟨_, by rw [he2]⟩
              · simp [openLeaves, leavesOf_append, leavesOf_toks]
              · intro x hx
                rcases List.mem_append.mp hx with hx | hx
                · exact hpl.1.1 x hx
                · obtain ⟨t, -, rfl⟩ := List.mem_map.mp hx
                  exact .tok
          | cons parent rest' =>
            simp only [List.isEmpty_cons, Bool.false_eq_true, if_false] at hlog1
            cases hlog1
            dsimp only at h
            split at h
            · cases h
            · rename_i log3 hlog3
              have hcalls := send_spec _ hlog3
              rw [liveHooks_eq parent.hooks (fun l i => .handleNode l i node.index ((results[l]?).getD none))] at hcalls
              have hinfo : ∃ its st pits pst infos', infos = (its, st) :: (pits, pst) :: infos' := by
                cases ho with
                | nested h1 =>
                  obtain ⟨a, b, c, rfl⟩ := h1.info
                  exact ⟨_, _, _, _, _, rfl⟩
              obtain ⟨its, st, pits, pst, infos', rfl⟩ := hinfo
              have ho2 := ho.close hn he1 hcalls
              have hl : openLeaves ((pits ++ [Item.node node.index st its], pst) :: infos') =
                  openLeaves ((its, st) :: (pits, pst) :: infos') := by
                simp [openLeaves_cons, leavesOf_append, leavesOf, Item.leaves]
              rcases ih ho2 (hpl.close node.index) h with ⟨h1, its', h2, h3, h5⟩ | ⟨n, rest, infos2, h1, h2, h3, h4, h5⟩
              · exact .inl ⟨h1, its', h2, by rw [h3, hl], h5⟩
              · exact .inr ⟨n, rest, infos2, h1, h2.trans (List.suffix_cons _ _), h3, by rw [h4, hl], h5⟩

/-- Invariant of the parsing loop. -/
def TreeInv (env : PEnv σ) (P : Option Token → Int → Rule → Prop) (st0 : Option Token) (cur : Option (Option Token))
    (pc : PC σ) : Prop :=
  match pc.stack with
  | [] => ∃ its, Closed env P st0 its pc.log pc.lastResult ∧ leavesOf its = (consumedBy pc.steps).reduceOption ∧
      ∀ x ∈ its, Tidy env.g x
  | n :: rest => ∃ infos, Open env P st0 (n :: rest) infos pc.log ∧
      openLeaves infos ++ n.sides = (consumedBy pc.steps).reduceOption ∧ (∀ m ∈ rest, m.sides = []) ∧
      (∀ t ∈ n.sides, env.g.isSideType t.type = true) ∧ Placed env.g cur n.sides infos

theorem consumedBy_snoc (steps : List (Option Token × Rule)) (tok : Option Token) (r : Rule) :
    (consumedBy (steps ++ [(tok, r)])).reduceOption =
      (consumedBy steps).reduceOption ++ (if consumes r tok then tok.toList else []) := by
  simp only [consumedBy, List.filter_append, List.map_append, List.reduceOption_append]
  congr 1
  by_cases h : consumes r tok = true
  · rw [if_pos h]
    rw [consumes_iff] at h
    cases tok with
    | none => simp [List.reduceOption]
    | some t =>
      rw [List.filter_cons_of_pos (by simpa using h)]
      simp [List.reduceOption]
  · rw [if_neg h]
    rw [consumes_iff] at h
    rw [List.filter_cons_of_neg (by simpa using h)]
    simp [List.reduceOption]

theorem moveFrame_spec {g : Grammar} {r : Rule} {f f' : Frame} (h : moveFrame g r f = some f') :
    f'.index = f.index ∧ f'.state = after r f.state := by
  rw [moveFrame] at h
  unfold after
  by_cases h1 : r.state = repeatState
  · rw [if_pos h1] at h
    cases h
    exact ⟨rfl, by rw [if_pos (show r.state = -128 from h1)]⟩
  · rw [if_neg h1] at h
    rw [if_neg (show ¬ r.state = -128 from h1)]
    split at h
    · cases h; exact ⟨rfl, rfl⟩
    · rw [Option.map_eq_some_iff] at h
      obtain ⟨_, -, rfl⟩ := h
      exact ⟨rfl, rfl⟩

/-- Stack part of the invariant with explicit parts. -/
def StackInv (env : PEnv σ) (P : Option Token → Int → Rule → Prop) (st0 : Option Token) (cur : Option (Option Token))
    (stack : List NodeRec) (log : List Event) (last : Option Nat) (consumed : List Token) : Prop :=
  match stack with
  | [] => ∃ its, Closed env P st0 its log last ∧ leavesOf its = consumed ∧ ∀ x ∈ its, Tidy env.g x
  | n :: rest => ∃ infos, Open env P st0 (n :: rest) infos log ∧ openLeaves infos ++ n.sides = consumed ∧
      (∀ m ∈ rest, m.sides = []) ∧ (∀ t ∈ n.sides, env.g.isSideType t.type = true) ∧ Placed env.g cur n.sides infos

theorem popNode_inv {env : PEnv σ} {P : Option Token → Int → Rule → Prop} {st0 : Option Token} {pc pc' : PC σ}
    {cur : Option (Option Token)} {consumed : List Token}
    (hi : StackInv env P st0 cur pc.stack pc.log pc.lastResult consumed)
    (h : popNode env pc = .done (.ok pc')) : StackInv env P st0 cur pc'.stack pc'.log pc'.lastResult consumed := by
  rw [popNode] at h
  cases hs : pc.stack with
  | nil => rw [hs] at h; cases h
  | cons node rest =>
    rw [hs] at h hi
    obtain ⟨infos, h1, h2, h3, h4, hpl⟩ := hi
    dsimp only at h
    split at h
    · cases h
    · rename_i stack log last hp
      cases h
      have ho : Open env P st0 ({ node with sides := [] } :: rest) infos pc.log := by
        obtain ⟨its, st, infos', rfl⟩ := h1.info
        exact h1.extend rfl rfl (fun _ h => h) (fun _ h => h)
      rcases popLoop_spec h4 _ ho hpl hp with ⟨rfl, its, h5, h6, h8⟩ | ⟨n, rest', infos', rfl, h5, h6, h7, h8⟩
      · exact ⟨its, h5, by rw [h6, h2], h8⟩
      · refine ⟨infos', ?_, by rw [h7]; exact h2, ?_, h4, h8⟩
        · obtain ⟨its, st, infos'', rfl⟩ := h6.info
          exact h6.extend rfl rfl (fun _ h => h) (fun _ h => h)
        · intro m hm
          have hsuf : m ∈ rest := by
            obtain ⟨a, ha⟩ := h5
            cases a with
            | nil => simp only [List.nil_append, List.cons.injEq] at ha; rw [← ha.2]; exact hm
            | cons a as =>
              simp only [List.cons_append, List.cons.injEq] at ha
              rw [← ha.2]; simp [hm]
          exact h3 m hsuf

/-- A rule is applied: the invariant is kept if the rule may be used. -/
theorem applyRule_inv {env : PEnv σ} {P : Option Token → Int → Rule → Prop} {st0 : Option Token} {pc pc' : PC σ}
    {tok : Option Token} {r : Rule} {b : Bool} {node : NodeRec} {rest : List NodeRec} (hs : pc.stack = node :: rest)
    (hP : P tok node.state r) (hi : TreeInv env P st0 (some tok) pc)
    (h : applyRule env pc tok r = .done (.ok (pc', b))) : TreeInv env P st0 (if b then none else some tok) pc' := by
  have hsteps := (applyRule_spec h).2
  have hgoal : StackInv env P st0 (if b then none else some tok) pc'.stack pc'.log pc'.lastResult
      (consumedBy (pc.steps ++ [(tok, r)])).reduceOption → TreeInv env P st0 (if b then none else some tok) pc' := by
    obtain ⟨stack, log, last, rfl⟩ := hsteps
    exact fun h => h
  apply hgoal
  clear hgoal hsteps
  rw [consumedBy_snoc]
  unfold TreeInv at hi
  rw [hs] at hi
  obtain ⟨infos, ho, hl, hrest, hside, hpl⟩ := hi
  obtain ⟨its, st, infos', rfl⟩ := ho.info
  rw [applyRule, hs] at h
  obtain ⟨f, hf, h⟩ := orPanic_done.mp h
  obtain ⟨hf1, hf2⟩ := moveFrame_spec hf
  dsimp only at h
  rw [bindRes_ok] at h
  obtain ⟨pc1, h1, h⟩ := h
  rw [bindRes_ok] at h
  obtain ⟨pc2, h2, h⟩ := h
  cases h
  have hmid : StackInv env P st0 (if consumes r tok then none else some tok) pc1.stack pc1.log pc1.lastResult ((consumedBy pc.steps).reduceOption ++
      (if consumes r tok then tok.toList else [])) := by
    clear h2
    split at h1
    · -- a nested node
      rename_i hnode
      split at h1
      · rename_i hpos
        rw [pushNode] at h1
        dsimp only at h1
        have hside' : sideEvents ({ node with toFrame := f } : NodeRec) = sideEvents node := rfl
        rw [hside'] at h1
        split at h1
        · cases h1
        · rename_i log1 hlog1
          split at h1
          · cases h1
          · rename_i log2 hlog2
            rw [addNode] at h1
            split at h1
            · cases h1
            · rename_i hooks log3 hmake
              obtain ⟨first, hfirst, h1⟩ := orPanic_done.mp h1
              obtain ⟨gs, hgs, h1⟩ := orPanic_done.mp h1
              cases h1
              have hc1 := send_spec _ hlog1
              rw [sideEvents_eq] at hc1
              have hc2 := send_spec _ hlog2
              rw [liveHooks_eq _ (fun l i => .newNode l i r.node.toNat tok)] at hc2
              have ho1 : Open env P st0 (node :: rest) ((its ++ node.sides.map Item.tok, st) :: infos') log1 :=
                Open.sides node.sides ho rfl rfl rfl hside hc1
              refine ⟨([], tok) :: (its ++ node.sides.map Item.tok, st) :: infos', ?_, ?_, ?_, ?_, ?_⟩
              · refine Open.nested (s1 := node.state) (r := r) (f := first) (log0 := log1) ?_ hP ?_ ?_ hc2
                  (makeHooks_spec _ hmake) .nil hfirst .nil
                · exact ho1.extend (by exact hf1) rfl (fun _ h => h) (fun _ h => h)
                · dsimp only; omega
                · exact hf2
              · have : consumes r tok = true → tok = none := by
                  rw [consumes_iff]
                  rintro (h | h)
                  · exact h
                  · exact absurd h.1 hnode
                have : (if consumes r tok = true then tok.toList else []) = [] := by
                  split
                  · rename_i h; rw [this h]; rfl
                  · rfl
                rw [this, ← hl]
                simp [openLeaves_cons, leavesOf_append, leavesOf_toks, leavesOf]
              · intro m hm
                rcases List.mem_cons.mp hm with rfl | hm
                · rfl
                · exact hrest m hm
              · intro t ht; cases ht
              · refine hpl.push (fun t ht => ?_)
                rw [if_neg]
                rw [consumes_iff]
                rintro (h | h)
                · rw [ht] at h; cases h
                · exact absurd h.1 hnode
      · cases h1
    · rename_i hnode
      have hnode : r.node = -1 := by simpa [sameNode] using hnode
      split at h1
      · -- the token is consumed
        rename_i hcons
        rw [if_pos hcons, if_pos hcons]
        cases tok with
        | none =>
          cases h1
          refine ⟨(its, st) :: infos', ?_, by simpa using hl, hrest, hside, hpl.noToken⟩
          refine ho.extend hf1 rfl (fun _ hw => ?_) (fun _ h => h)
          rw [show ({ node with toFrame := f } : NodeRec).state = after r node.state from hf2]
          exact .skip hw hP hnode (.inr rfl)
        | some t =>
          have hany : r.token ≠ -1 := by
            rw [consumes_iff] at hcons
            rcases hcons with h | h
            · cases h
            · exact h.2
          rw [handleNodeToken.eq_def] at h1
          dsimp only at h1
          split at h1
          · rename_i hst
            cases h1
            refine ⟨(its, st) :: infos', ?_, ?_, hrest, ?_, hpl.side hst⟩
            · refine ho.extend hf1 rfl (fun _ hw => ?_) (fun _ h => h)
              rw [show ({ node with toFrame := f, sides := node.sides ++ [t] } : NodeRec).state = after r node.state from hf2]
              exact .onSide hw hP hnode hst
            · rw [← hl]; simp
            · intro t' ht'
              rcases List.mem_append.mp ht' with h | h
              · exact hside t' h
              · rw [List.mem_singleton.mp h]; exact hst
          · rename_i hst
            split at h1
            · cases h1
            · rename_i log1 hlog1
              cases h1
              have hc := send_spec _ hlog1
              have hside' : sideEvents ({ node with toFrame := f } : NodeRec) = sideEvents node := rfl
              rw [hside', sideEvents_eq, tokenEvents_eq] at hc
              obtain ⟨hc1, hc2⟩ := calls_append hc
              have ho1 : Open env P st0 (node :: rest) ((its ++ node.sides.map Item.tok, st) :: infos') _ :=
                Open.sides node.sides ho rfl rfl rfl hside hc1
              refine ⟨((its ++ node.sides.map Item.tok) ++ [.tok t], st) :: infos', ?_, ?_, hrest, ?_, hpl.token (by simpa using hst)⟩
              · refine ho1.extend hf1 rfl (fun _ hw => ?_) (fun _ h => .tok h hc2)
                rw [show ({ node with toFrame := f, sides := [] } : NodeRec).state = after r node.state from hf2]
                exact .tok hw hP hnode hany
              · rw [← hl]
                simp [openLeaves_cons, leavesOf_append, leavesOf_toks, leavesOf, Item.leaves]
              · intro t' ht'; cases ht'
      · -- a fallback rule
        rename_i hcons
        rw [if_neg hcons, if_neg hcons]
        cases h1
        refine ⟨(its, st) :: infos', ?_, by simpa using hl, hrest, hside, hpl⟩
        refine ho.extend hf1 rfl (fun _ hw => ?_) (fun _ h => h)
        rw [show ({ node with toFrame := f } : NodeRec).state = after r node.state from hf2]
        rw [consumes_iff, not_or] at hcons
        refine .skip hw hP hnode (.inl ?_)
        by_contra hne
        exact hcons.2 ⟨hnode, hne⟩
  split at h2
  · cases h2
  · split at h2
    · exact popNode_inv hmid h2
    · cases h2; exact hmid

/-- The invariant depends only on some fields. -/
theorem TreeInv.congr {env : PEnv σ} {P : Option Token → Int → Rule → Prop} {st0 : Option Token} {pc pc' : PC σ}
    {cur : Option (Option Token)} (h : TreeInv env P st0 cur pc) (h1 : pc'.stack = pc.stack) (h2 : pc'.log = pc.log) (h3 : pc'.lastResult = pc.lastResult)
    (h4 : pc'.steps = pc.steps) : TreeInv env P st0 cur pc' := by
  unfold TreeInv at *
  rw [h1, h2, h3, h4]
  exact h

theorem treeInv_start {env : PEnv σ} {P : Option Token → Int → Rule → Prop} {src : σ} {tok : Option Token} {pc : PC σ}
    (h : pushNode env { src := src } rootNode tok = .done (.ok pc)) : TreeInv env P tok none pc := by
  rw [pushNode] at h
  dsimp only at h
  rw [addNode] at h
  split at h
  · cases h
  · rename_i hooks log hmake
    obtain ⟨first, hfirst, h⟩ := orPanic_done.mp h
    obtain ⟨gs, hgs, h⟩ := orPanic_done.mp h
    cases h
    refine ⟨[([], tok)], .root rfl (makeHooks_spec _ hmake) .nil hfirst .nil, rfl, ?_, ?_, ?_⟩
    · intro m hm; cases hm
    · intro t ht; cases ht
    · refine ⟨⟨by simp, fun h => absurd rfl h, trivial⟩, fun its st outer he => ?_⟩
      simp only [List.cons.injEq, Prod.mk.injEq] at he
      obtain ⟨⟨rfl, rfl⟩, rfl⟩ := he
      exact ⟨fun t a h => by simp at h, fun h => absurd rfl h⟩

theorem TreeInv.start {env : PEnv σ} {P : Option Token → Int → Rule → Prop} {st0 : Option Token} {pc : PC σ}
    (h : TreeInv env P st0 none pc) (tok : Option Token) : TreeInv env P st0 (some tok) pc := by
  unfold TreeInv at *
  split
  · rename_i hs
    rw [hs] at h
    exact h
  · rename_i n rest hs
    rw [hs] at h
    obtain ⟨infos, h1, h2, h3, h4, h5⟩ := h
    exact ⟨infos, h1, h2, h3, h4, h5.start _⟩

/-- `TreeInv` is an invariant of the loop if rules chosen may be used. -/
theorem tree_inv {env : PEnv σ} {P : Option Token → Int → Rule → Prop} {st0 : Option Token}
    {I : PC σ → Option Token → Prop} {J : PC σ → Prop} (hinv : LoopInv env I J)
    (hP : ∀ {fuel : Nat} {pc pc1 : PC σ} {tok : Option Token} {node : NodeRec} {rest : List NodeRec} {r : Rule}, I pc tok →
      pc.stack = node :: rest → nextRule env fuel pc tok node.state = .done (pc1, some r) → P tok node.state r) :
    LoopInv env (fun pc tok => I pc tok ∧ TreeInv env P st0 (some tok) pc) (fun pc => J pc ∧ TreeInv env P st0 none pc) where
  token := by
    intro fuel pc pc' tok node rest hJ hs h
    refine ⟨hinv.token hJ.1 hs h, ?_⟩
    obtain ⟨src, ts, dl, rfl, -⟩ := nextToken_spec h
    exact (hJ.2.congr rfl rfl rfl rfl).start _
  step := by
    intro fuel pc pc1 pc2 tok node rest r b hI hs h1 h2
    have h3 := hinv.step hI.1 hs h1 h2
    have h4 : TreeInv env P st0 (some tok) pc1 := by
      obtain ⟨src, ap, dl, rfl⟩ := nextRule_spec h1
      exact hI.2.congr rfl rfl rfl rfl
    have hs1 : pc1.stack = node :: rest := by
      obtain ⟨src, ap, dl, rfl⟩ := nextRule_spec h1
      exact hs
    have h5 := applyRule_inv hs1 (hP hI.1 hs h1) h4 h2
    cases b with
    | true => exact ⟨h3, h5⟩
    | false => exact ⟨h3, h5⟩

end Verif.Proof
