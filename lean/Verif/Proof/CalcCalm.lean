/-
Lemmas about hooks of the calculator in parses that may fail: they never panic.
-/
import Verif.Proof.CalcCompute
import Verif.Proof.CalcStop
import Verif.Proof.CutsWhole
import Verif.Proof.Failing
import Verif.Proof.Fold

namespace Verif.Proof.Calc

open Verif Verif.Model Verif.Model.Calc Verif.Spec Verif.Spec.Calc
open Verif.Model.Tree (bindRun)

variable {σ α : Type}

/-- Errors hooks may return for a token. -/
def FairAt (num : List Nat → Except Nat α) (t : Token) (x : Nat) : Prop :=
  t.typeName = "name" ∧ x = argDefinedError ∨ t.typeName = "number" ∧ num t.content = .error x

/-- Errors hooks may return for tokens. -/
def Fair (num : List Nat → Except Nat α) (K : Token → Prop) (x : Nat) : Prop := ∃ t, K t ∧ Lexed t ∧ FairAt num t x

/-- Errors hooks may return. -/
def Told (num : List Nat → Except Nat α) (x : Nat) : Prop := x = argDefinedError ∨ ∃ s, num s = .error x

theorem Fair.told {num : List Nat → Except Nat α} {K : Token → Prop} {x : Nat} (h : Fair num K x) : Told num x := by
  obtain ⟨t, -, -, ⟨-, h⟩ | ⟨-, h⟩⟩ := h
  · exact .inl h
  · exact .inr ⟨_, h⟩

/-- Hooks of the parser are hooks of the calculator. -/
structure Hooked (env : PEnv σ) (A : Arith α) (num : List Nat → Except Nat α) : Prop where
  g : env.g = grammar
  layers : env.layers = 1
  watch : env.watchNodes = true
  hooked : ∀ i, env.hooked 0 i = true
  make : ∀ log node tok, env.onMake log (.make 0 node tok) =
    (objectCall (hooks A num) (objectsAfter (hooks A num) log) log.length (.make 0 node tok)).map fun _ => true
  newNode : ∀ log inst node tok, env.onCall log (.newNode 0 inst node tok) =
    (objectCall (hooks A num) (objectsAfter (hooks A num) log) log.length (.newNode 0 inst node tok)).map fun _ => none
  token : ∀ log inst tok, env.onCall log (.token 0 inst tok) =
    (objectCall (hooks A num) (objectsAfter (hooks A num) log) log.length (.token 0 inst tok)).map fun _ => none
  endNode : ∀ log inst, env.onCall log (.endNode 0 inst) =
    (objectCall (hooks A num) (objectsAfter (hooks A num) log) log.length (.endNode 0 inst)).map fun _ => some log.length
  handleNode : ∀ log inst node res, env.onCall log (.handleNode 0 inst node res) =
    (objectCall (hooks A num) (objectsAfter (hooks A num) log) log.length (.handleNode 0 inst node res)).map fun _ => none

/-! ### Instances -/

/-- The instance is made for the node. -/
def MadeFor : Nat → Inst α → Prop
  | 0, .root _ => True
  | 1, .chain .. => True
  | 2, .assignment .. => True
  | 3, .funcDef .. => True
  | 4, .chain .. => True
  | 5, .power .. => True
  | 6, .value _ => True
  | 7, .funcCall .. => True
  | _, _ => False

/-- The instance may be finished. -/
def filled : Inst α → Bool
  | .root b => b.isSome
  | .power b _ => b.isSome
  | .value b => b.isSome
  | .assignment _ b => b.isSome
  | .funcDef _ _ b => b.isSome
  | _ => true

/-- An inner node `c` is enough to finish node `i`. -/
def fills (i c : Nat) : Bool := decide (i ≠ 2 ∧ i ≠ 3 ∨ c = 1)

/-- Nodes that may be finished as they are. -/
def easy (i : Nat) : Bool := decide (i = 1 ∨ i = 4 ∨ i = 7)

theorem easy_filled {i : Nat} {inst : Inst α} (hm : MadeFor i inst) (he : easy i = true) : filled inst = true := by
  have he : i = 1 ∨ i = 4 ∨ i = 7 := by simpa [easy] using he
  rcases he with rfl | rfl | rfl <;> cases inst <;> first | rfl | exact hm.elim

theorem newInst_ok (A : Arith α) {i : Nat} (hi : i < 8) : ∃ inst, newInst A i = .ok inst ∧ MadeFor i inst := by
  match i, hi with
  | 0, _ => exact ⟨_, rfl, trivial⟩
  | 1, _ => exact ⟨_, rfl, trivial⟩
  | 2, _ => exact ⟨_, rfl, trivial⟩
  | 3, _ => exact ⟨_, rfl, trivial⟩
  | 4, _ => exact ⟨_, rfl, trivial⟩
  | 5, _ => exact ⟨_, rfl, trivial⟩
  | 6, _ => exact ⟨_, rfl, trivial⟩
  | 7, _ => exact ⟨_, rfl, trivial⟩
  | n + 8, h => omega

/-- Instances made for a node have its kind. -/
theorem madeFor_of {i : Nat} {a b : Inst α} (hm : MadeFor i a) (h : a.ctorIdx = b.ctorIdx) : MadeFor i b := by
  match i with
  | 0 | 1 | 2 | 3 | 4 | 5 | 6 | 7 =>
    cases a <;> cases b <;> first | exact hm | cases h
  | n + 8 => cases a <;> exact hm.elim

theorem token_calm {num : List Nat → Except Nat α} {i : Nat} {inst : Inst α} (hm : MadeFor i inst) {t : Token} (ht : t.content ≠ []) :
    match Model.Calc.handleToken num inst t with
    | .error x => FairAt num t x
    | .ok inst' => MadeFor i inst' ∧ (filled inst = true → filled inst' = true) ∧
      (i = 6 → t.typeName = "name" ∨ t.typeName = "number" → filled inst' = true) := by
  cases inst with
  | root b => exact ⟨madeFor_of hm rfl, fun h => h, fun h => by subst h; exact hm.elim⟩
  | chain o v vs =>
    rw [Model.Calc.handleToken]
    cases hc : t.content with
    | nil => exact absurd hc ht
    | cons c cs => exact ⟨madeFor_of hm rfl, fun h => rfl, fun h => by subst h; exact hm.elim⟩
  | power b x => exact ⟨madeFor_of hm rfl, fun h => h, fun h => by subst h; exact hm.elim⟩
  | value b =>
    rw [Model.Calc.handleToken]
    by_cases h1 : t.typeName = "name"
    · rw [if_pos h1]; exact ⟨madeFor_of hm rfl, fun _ => rfl, fun _ _ => rfl⟩
    · rw [if_neg h1]
      by_cases h2 : t.typeName = "number"
      · rw [if_pos h2]
        cases hn : num t.content with
        | error x => exact .inr ⟨h2, hn⟩
        | ok v => exact ⟨madeFor_of hm rfl, fun _ => rfl, fun _ _ => rfl⟩
      · rw [if_neg h2]
        exact ⟨hm, fun h => h, fun _ h => (h.elim h1 h2).elim⟩
  | assignment n v => exact ⟨madeFor_of hm rfl, fun h => h, fun h => by subst h; exact hm.elim⟩
  | funcDef n as b =>
    rw [Model.Calc.handleToken]
    by_cases h1 : t.typeName ≠ "name"
    · rw [if_pos h1]; exact ⟨hm, fun h => h, fun h => by subst h; exact hm.elim⟩
    · rw [if_neg h1]
      by_cases h2 : t.content = funcText
      · rw [if_pos h2]; exact ⟨hm, fun h => h, fun h => by subst h; exact hm.elim⟩
      · rw [if_neg h2]
        by_cases h3 : n = []
        · rw [if_pos h3]; exact ⟨madeFor_of hm rfl, fun h => h, fun h => by subst h; exact hm.elim⟩
        · rw [if_neg h3]
          by_cases h4 : t.content ∈ as
          · rw [if_pos h4]; exact .inl ⟨not_not.mp h1, rfl⟩
          · rw [if_neg h4]; exact ⟨madeFor_of hm rfl, fun h => h, fun h => by subst h; exact hm.elim⟩
  | funcCall n as => exact ⟨madeFor_of hm rfl, fun h => h, fun h => by subst h; exact hm.elim⟩

theorem node_calm (A : Arith α) {i : Nat} {inst : Inst α} (hm : MadeFor i inst) (c : Nat) (e : Expr α) :
    ∃ inst', handleNode A inst c (some e) = .ok inst' ∧ MadeFor i inst' ∧ (filled inst = true ∨ fills i c = true → filled inst' = true) := by
  cases inst with
  | root b => exact ⟨_, rfl, madeFor_of hm rfl, fun _ => rfl⟩
  | chain o v vs =>
    rw [handleNode]
    by_cases hn : e.isNumber = true
    · obtain ⟨w, hw⟩ := number_value A e hn
      rw [if_pos hn, compute, hw]
      exact ⟨_, rfl, madeFor_of hm rfl, fun _ => rfl⟩
    · rw [if_neg hn]
      exact ⟨_, rfl, madeFor_of hm rfl, fun _ => rfl⟩
  | power b x => cases b <;> exact ⟨_, rfl, madeFor_of hm rfl, fun _ => rfl⟩
  | value b => exact ⟨_, rfl, madeFor_of hm rfl, fun _ => rfl⟩
  | assignment n v =>
    rw [handleNode]
    by_cases hc : c = 1
    · rw [if_pos hc]; exact ⟨_, rfl, madeFor_of hm rfl, fun _ => rfl⟩
    · rw [if_neg hc]
      refine ⟨_, rfl, hm, fun h => h.elim id fun h => ?_⟩
      have hi : i = 2 := by
        match i with
        | 2 => rfl
        | 0 | 1 | 3 | 4 | 5 | 6 | 7 | n + 8 => exact hm.elim
      subst hi
      simp [fills, hc] at h
  | funcDef n as b =>
    rw [handleNode]
    by_cases hc : c = 1
    · rw [if_pos hc]; exact ⟨_, rfl, madeFor_of hm rfl, fun _ => rfl⟩
    · rw [if_neg hc]
      refine ⟨_, rfl, hm, fun h => h.elim id fun h => ?_⟩
      have hi : i = 3 := by
        match i with
        | 3 => rfl
        | 0 | 1 | 2 | 4 | 5 | 6 | 7 | n + 8 => exact hm.elim
      subst hi
      simp [fills, hc] at h
  | funcCall n as =>
    rw [handleNode]
    by_cases hc : c = 1
    · rw [if_pos hc]; exact ⟨_, rfl, madeFor_of hm rfl, fun _ => rfl⟩
    · rw [if_neg hc]; exact ⟨_, rfl, hm, fun _ => rfl⟩

theorem end_calm (A : Arith α) {inst : Inst α} (hf : filled inst = true) : ∃ e, Model.Calc.endNode A inst = .ok (some e) := by
  cases inst with
  | root b => cases b with
    | none => cases hf
    | some e => exact ⟨e, rfl⟩
  | chain o v vs => exact ⟨_, rfl⟩
  | power b x => cases b with
    | none => cases hf
    | some b =>
      rw [Model.Calc.endNode]
      by_cases hn : (Expr.power b x).isNumber = true
      · obtain ⟨w, hw⟩ := number_value A _ hn
        rw [if_pos hn, compute, hw]
        exact ⟨_, rfl⟩
      · rw [if_neg hn]; exact ⟨_, rfl⟩
  | value b => cases b with
    | none => cases hf
    | some e => exact ⟨e, rfl⟩
  | assignment n b => cases b with
    | none => cases hf
    | some e => exact ⟨_, rfl⟩
  | funcDef n as b => cases b with
    | none => cases hf
    | some e => exact ⟨_, rfl⟩
  | funcCall n as => exact ⟨_, rfl⟩

/-! ### Rules -/

/-- States of nodes. -/
def owner (s : Int) : Nat :=
  if s < 1 then 0 else if s < 5 then 1 else if s < 8 then 2 else if s < 16 then 3 else if s < 19 then 4 else if s < 22 then 5
  else if s < 25 then 6 else 7

/-- States with the node (almost) finished. -/
def late (s : Int) : Bool := decide (s = -1 ∨ s = 20 ∨ s = 21 ∨ s = 24)

/-- What rules do. -/
def ruleOk (k : Option Token) (s : Int) (r : Rule) : Bool :=
  (decide (after r s = -1) || decide (owner (after r s) = owner s)) &&
  (if r.node = -1 then
    (!late (after r s) || late s || easy (owner s) ||
      (decide (owner s = 6) && decide (r.token ≠ -1) && k.any fun t => decide (t.type = 1 ∨ t.type = 2))) &&
    (decide (r.token = -1) || k.all fun t => decide (t.type ≠ -3))
  else
    decide (0 ≤ r.node ∧ r.node < 8) && (!late (after r s) || late s || easy (owner s) || fills (owner s) r.node.toNat))

theorem rules_ok : ∀ k ∈ kinds, ∀ s ∈ (List.range 31).map Int.ofNat, ∀ rules, findRules grammar id k s = some rules →
    ∀ r ∈ rules, ruleOk k s r = true := by
  have h : ∀ k ∈ kinds, ∀ s ∈ (List.range 31).map Int.ofNat, ((findRules grammar id k s).getD []).all (ruleOk k s) = true := by
    decide +kernel
  intro k hk s hs rules hr r hm
  have := h k hk s hs
  rw [hr] at this
  exact List.all_eq_true.mp this r hm

theorem firsts_ok : ∀ i < 8, ∃ f : Nat, grammar.firsts[i]? = some f ∧ owner f = i ∧ late f = false := by
  have h : ∀ i ∈ List.range 8, (grammar.firsts[i]?).any (fun f => decide (owner f = i) && !late f) = true := by decide +kernel
  intro i hi
  have := h i (List.mem_range.mpr hi)
  cases hf : grammar.firsts[i]? with
  | none => rw [hf] at this; cases this
  | some f =>
    rw [hf] at this
    simp at this
    exact ⟨f, rfl, this.1, this.2⟩

/-! ### Stacks -/

/-- Nodes of the stack have instances; nodes that are almost finished may be finished, maybe with the inner node `p`. Instances of inner
nodes are newer, all of them are older than `n`. -/
def Ready (o : Objects (Inst α) (Option (Expr α))) : Nat → Option Nat → List NodeRec → Prop
  | _, _, [] => True
  | n, p, node :: rest => node.sides = [] ∧ ∃ id inst, node.hooks = [some id] ∧ id < n ∧ o.insts id = some inst ∧
      MadeFor node.index inst ∧ (node.state = -1 ∨ owner node.state = node.index) ∧
      (late node.state = true → filled inst = true ∨ ∃ c, p = some c ∧ fills node.index c = true) ∧ Ready o id (some node.index) rest

theorem ready_congr {o o' : Objects (Inst α) (Option (Expr α))} (st : List NodeRec) {n n' : Nat} {p : Option Nat}
    (h : ∀ k < n, o'.insts k = o.insts k) (hn : n ≤ n') (hR : Ready o n p st) : Ready o' n' p st := by
  induction st generalizing n n' p with
  | nil => trivial
  | cons node rest ih =>
    obtain ⟨h1, id, inst, h2, h3, h4, h5, h6, h7, h8⟩ := hR
    exact ⟨h1, id, inst, h2, by omega, by rw [h id h3]; exact h4, h5, h6, h7, ih (fun k hk => h k (by omega)) (Nat.le_refl _) h8⟩

variable {env : PEnv σ} {A : Arith α} {num : List Nat → Except Nat α}

/-- Nodes of the stack are ready; the result of the root node is not nil. -/
def Calm (A : Arith α) (num : List Nat → Except Nat α) (pc : PC σ) : Prop :=
  Ready (objectsAfter (hooks A num) pc.log) pc.log.length none pc.stack ∧
    (pc.stack = [] → ∃ k e, pc.lastResult = some k ∧ (objectsAfter (hooks A num) pc.log).vals k = some (some e))

theorem send_one (env : PEnv σ) (e : Event) (log : List Event) :
    send env [e] log = match env.onCall log e with
      | .error x => .error (.hook x)
      | .ok _ => .ok (log ++ [e]) := by
  rw [send]
  cases env.onCall log e <;> rfl

theorem live_one (id : Nat) : liveHooks [some id] = [(0, id)] := rfl

theorem addNode_ready (h : Hooked env A num) {pc : PC σ} {i : Nat} (hi : i < 8) {tok : Option Token} {stack : List NodeRec} {log : List Event}
    (hR : Ready (objectsAfter (hooks A num) log) log.length (some i) stack) {res : Except PErr (PC σ)}
    (hp : addNode env pc i tok stack log = .done res) :
    ∃ pc', res = .ok pc' ∧ Ready (objectsAfter (hooks A num) pc'.log) pc'.log.length none pc'.stack := by
  obtain ⟨inst, hinst, hm⟩ := newInst_ok A hi
  obtain ⟨f, hf, ho, hl⟩ := firsts_ok i hi
  have hc : objectCall (hooks A num) (objectsAfter (hooks A num) log) log.length (.make 0 i tok) =
      .ok ((objectsAfter (hooks A num) log).put log.length inst) := by
    simp [objectCall, hooks, hinst, Except.map]
  rw [addNode, h.layers, show List.range 1 = [0] from rfl, makeHooks, if_pos (h.hooked i), h.make, hc] at hp
  simp only [Except.map, makeHooks, if_true] at hp
  rw [h.g, hf] at hp
  obtain ⟨f', hf', hp⟩ := orPanic_done.mp hp
  cases hf'
  obtain ⟨st, -, hp⟩ := orPanic_done.mp hp
  cases hp
  refine ⟨_, rfl, rfl, log.length, inst, rfl, by simp, ?_, hm, .inr ho, ?_, ?_⟩
  · rw [objects_snoc, hc]; simp [Objects.put]
  · intro hx
    rw [show late _ = late (f : Int) from rfl, hl] at hx
    cases hx
  · refine ready_congr stack (fun k hk => ?_) (Nat.le_refl _) hR
    rw [objects_snoc, hc]
    simp [Objects.put, Nat.ne_of_lt hk]

theorem pushNode_ready (h : Hooked env A num) {pc : PC σ} {i : Nat} (hi : i < 8) {tok : Option Token}
    (hR : Ready (objectsAfter (hooks A num) pc.log) pc.log.length (some i) pc.stack) {res : Except PErr (PC σ)}
    (hp : pushNode env pc i tok = .done res) :
    ∃ pc', res = .ok pc' ∧ Ready (objectsAfter (hooks A num) pc'.log) pc'.log.length none pc'.stack := by
  rw [pushNode.eq_def] at hp
  cases hs : pc.stack with
  | nil =>
    rw [hs] at hp hR
    exact addNode_ready h hi hR hp
  | cons node rest =>
    rw [hs] at hp hR
    obtain ⟨h1, id, inst, h2, h3, h4, h5, h6, h7, h8⟩ := hR
    have hc : objectCall (hooks A num) (objectsAfter (hooks A num) pc.log) pc.log.length (.newNode 0 id i tok) =
        .ok ((objectsAfter (hooks A num) pc.log).put id inst) := by
      simp only [objectCall, h4]
      rfl
    simp only [sideEvents, h1, List.flatMap_nil, send, h2, live_one, List.map_cons, List.map_nil, h.newNode, hc, Except.map] at hp
    refine addNode_ready h hi ?_ hp
    refine ready_congr (o := objectsAfter (hooks A num) pc.log) (n := pc.log.length) _ (fun k hk => ?_) (by simp)
      ⟨rfl, id, inst, rfl, h3, h4, h5, h6, h7, h8⟩
    rw [objects_snoc, hc]
    simp only [Objects.put]
    split
    · rename_i hk; rw [hk, h4]
    · rfl

theorem popLoop_ready (h : Hooked env A num) (stack : List NodeRec) {log : List Event} {last : Option Nat}
    (hR : Ready (objectsAfter (hooks A num) log) log.length none stack) :
    ∃ stack' log' last', popLoop env [] stack log last = .ok (stack', log', last') ∧
      Ready (objectsAfter (hooks A num) log') log'.length none stack' ∧
      (stack ≠ [] → stack' = [] → ∃ k e, last' = some k ∧ (objectsAfter (hooks A num) log').vals k = some (some e)) := by
  induction stack generalizing log last with
  | nil => exact ⟨_, _, _, rfl, trivial, fun h => absurd rfl h⟩
  | cons node rest ih =>
    obtain ⟨h1, id, inst, h2, h3, h4, h5, h6, h7, h8⟩ := hR
    rw [popLoop.eq_def]
    dsimp only
    by_cases hst : node.state = finalState
    · rw [if_neg (not_not_intro hst)]
      obtain ⟨e, he⟩ := end_calm A (inst := inst) (by
        rcases h7 (by rw [hst]; rfl) with h | ⟨c, hc, -⟩
        · exact h
        · cases hc)
      have hc : objectCall (hooks A num) (objectsAfter (hooks A num) log) log.length (.endNode 0 id) =
          .ok ((objectsAfter (hooks A num) log).return log.length (some e)) := by
        simp only [objectCall, h4]
        show (Model.Calc.endNode A inst).map _ = _
        rw [he]
        rfl
      have hsides : send env (if rest.isEmpty = true then List.flatMap (tokenEvents node.hooks) [] else []) log = .ok log := by
        split <;> rfl
      rw [hsides, h2]
      simp only [List.zipIdx_cons, List.zipIdx_nil, endHooks, h.endNode, hc, Except.map]
      cases rest with
      | nil =>
        refine ⟨_, _, _, rfl, trivial, fun _ _ => ⟨log.length, e, by simp [h.watch], ?_⟩⟩
        rw [objects_snoc, hc]
        simp [Objects.return]
      | cons parent rest' =>
        obtain ⟨p1, idp, instp, p2, p3, p4, p5, p6, p7, p8⟩ := h8
        obtain ⟨inst', n1, n2, n3⟩ := node_calm A p5 node.index e
        have ho : objectsAfter (hooks A num) (log ++ [.endNode 0 id]) =
            (objectsAfter (hooks A num) log).return log.length (some e) := by rw [objects_snoc, hc]
        have hc2 : objectCall (hooks A num) (objectsAfter (hooks A num) (log ++ [.endNode 0 id])) (log ++ [Event.endNode 0 id]).length
            (.handleNode 0 idp node.index (some log.length)) =
            .ok (((objectsAfter (hooks A num) log).return log.length (some e)).put idp inst') := by
          rw [ho]
          simp only [objectCall, Objects.return, p4, if_true]
          show (Model.Calc.handleNode A instp node.index (some e)).map _ = _
          rw [n1]
          rfl
        simp only [p2, live_one, List.map_cons, List.map_nil, List.getElem?_cons_zero, Option.getD_some, send_one, h.handleNode, hc2,
          Except.map]
        have hR2 : Ready (objectsAfter (hooks A num) (log ++ [Event.endNode 0 id] ++ [Event.handleNode 0 idp node.index (some log.length)]))
            (log ++ [Event.endNode 0 id] ++ [Event.handleNode 0 idp node.index (some log.length)]).length none (parent :: rest') := by
          rw [objects_snoc, hc2]
          refine ⟨p1, idp, inst', p2, by simp; omega, by simp [Objects.put], n2, p6, fun hl => .inl (n3 ?_), ?_⟩
          · rcases p7 hl with h | ⟨c, hc, hf⟩
            · exact .inl h
            · cases hc; exact .inr hf
          · refine ready_congr (n := idp) _ (fun k hk => ?_) (Nat.le_refl _) p8
            simp [Objects.put, Objects.return, Nat.ne_of_lt hk]
        obtain ⟨s', l', la', i1, i2, i3⟩ := ih (last := if True ∧ env.watchNodes = true then some log.length else last) hR2
        exact ⟨s', l', la', i1, i2, fun _ => i3 (by simp)⟩
    · rw [if_pos hst]
      exact ⟨_, _, _, rfl, ⟨rfl, id, inst, h2, h3, h4, h5, h6, h7, h8⟩, fun _ h => by cases h⟩

theorem popNode_ready (h : Hooked env A num) {pc : PC σ} (hR : Ready (objectsAfter (hooks A num) pc.log) pc.log.length none pc.stack)
    {res : Except PErr (PC σ)} (hp : popNode env pc = .done res) :
    ∃ pc', res = .ok pc' ∧ Calm A num pc' := by
  rw [popNode.eq_def] at hp
  cases hs : pc.stack with
  | nil => rw [hs] at hp; cases hp
  | cons node rest =>
    rw [hs] at hp hR
    have hn : node.sides = [] := hR.1
    have hR' : Ready (objectsAfter (hooks A num) pc.log) pc.log.length none ({ node with sides := [] } :: rest) := ⟨rfl, hR.2⟩
    obtain ⟨stack', log', last', h1, h2, h3⟩ := popLoop_ready h _ (last := pc.lastResult) hR'
    simp only [hn, h1] at hp
    cases hp
    exact ⟨_, rfl, h2, h3 (by simp)⟩

/-- A token that is consumed. -/
theorem nodeToken_ready (h : Hooked env A num) {pc : PC σ} {t : Token} (hns : grammar.isSideType t.type = false) (ht : t.content ≠ [])
    {node : NodeRec} {rest : List NodeRec} (hs : pc.stack = node :: rest)
    (hR : node.sides = [] ∧ ∃ id inst, node.hooks = [some id] ∧ id < pc.log.length ∧ (objectsAfter (hooks A num) pc.log).insts id = some inst ∧
      MadeFor node.index inst ∧ (node.state = -1 ∨ owner node.state = node.index) ∧
      (late node.state = true → filled inst = true ∨ node.index = 6 ∧ (t.typeName = "name" ∨ t.typeName = "number")) ∧
      Ready (objectsAfter (hooks A num) pc.log) id (some node.index) rest)
    {res : Except PErr (PC σ)} (hp : handleNodeToken env pc (some t) = .done res) :
    (∃ x, res = .error (.hook x) ∧ FairAt num t x) ∨
      ∃ pc', res = .ok pc' ∧ Ready (objectsAfter (hooks A num) pc'.log) pc'.log.length none pc'.stack := by
  obtain ⟨h1, id, inst, h2, h3, h4, h5, h6, h7, h8⟩ := hR
  rw [handleNodeToken.eq_def, hs] at hp
  dsimp only at hp
  rw [h.g, hns, if_neg (by simp)] at hp
  have hcalm := token_calm (num := num) h5 ht
  simp only [sideEvents, h1, List.flatMap_nil, List.nil_append, tokenEvents, h2, live_one, List.map_cons, List.map_nil, send_one, h.token] at hp
  cases hk : Model.Calc.handleToken num inst t with
  | error x =>
    rw [hk] at hcalm
    have hc : objectCall (hooks A num) (objectsAfter (hooks A num) pc.log) pc.log.length (.token 0 id t) = .error x := by
      simp only [objectCall, h4]
      show (Model.Calc.handleToken num inst t).map _ = _
      rw [hk]
      rfl
    rw [hc] at hp
    cases hp
    exact .inl ⟨x, rfl, hcalm⟩
  | ok inst' =>
    rw [hk] at hcalm
    obtain ⟨c1, c2, c3⟩ := hcalm
    have hc : objectCall (hooks A num) (objectsAfter (hooks A num) pc.log) pc.log.length (.token 0 id t) =
        .ok ((objectsAfter (hooks A num) pc.log).put id inst') := by
      simp only [objectCall, h4]
      show (Model.Calc.handleToken num inst t).map _ = _
      rw [hk]
      rfl
    rw [hc] at hp
    cases hp
    refine .inr ⟨_, rfl, ?_⟩
    dsimp only
    rw [objects_snoc, hc]
    refine ⟨rfl, id, inst', rfl, by simp; omega, by simp [Objects.put], c1, h6, fun hl => .inl ?_, ?_⟩
    · rcases h7 hl with h | ⟨h, h'⟩
      · exact c2 h
      · exact c3 h h'
    · refine ready_congr (n := id) _ (fun k hk => ?_) (Nat.le_refl _) h8
      simp [Objects.put, Nat.ne_of_lt hk]

/-- Kinds of tokens have types of tokens. -/
theorem given_type {upper : List Nat → List Nat} {tok : Option Token} (h : Given tok) :
    ∃ k ∈ kinds, k.map (·.type) = tok.map (·.type) ∧ ∀ s, findRules grammar upper tok s = findRules grammar id k s := by
  cases tok with
  | none => exact ⟨none, by simp [kinds], rfl, fun s => rfl⟩
  | some t =>
    have hdig : ∀ c : Nat, c ∈ [40, 41, 44, 61, 42, 47, 94, 43, 45] → ¬ (48 ≤ c ∧ c ≤ 57) ∧ ¬ (65 ≤ c ∧ c ≤ 90 ∨ 97 ≤ c ∧ c ≤ 122) := by decide
    have typed : ∀ {n : Int} {c : List Nat}, t.type = n → (kindToken n c).map (·.type) = (some t).map (·.type) := fun h => by
      simp [kindToken, h]
    rcases h t rfl with h | h
    · have hns := lexed_notSide h
      rcases h with ⟨h1, -, d, hd, hd2⟩ | ⟨h1, -, d, ds, hd, hd2⟩ | ⟨h1, -, c, hc, h2⟩ | ⟨h1, -, h2⟩
      · refine ⟨kindToken 1 [48], by simp [kinds], typed h1, findRules_keys hns (by decide) ?_⟩
        rw [keys_plain (.inl rfl) h1 (literal_none fun c hc e => by
          rw [e, List.mem_singleton] at hd
          subst hd
          exact (hdig _ hc).1 hd2)]
        decide
      · refine ⟨kindToken 2 [97], by simp [kinds], typed h1, findRules_keys hns (by decide) ?_⟩
        rw [keys_plain (.inr rfl) h1 (literal_none fun c hc e => by
          rw [hd, List.cons.injEq] at e
          obtain ⟨rfl, -⟩ := e
          exact (hdig _ hc).2 hd2)]
        decide
      · refine ⟨kindToken 3 [c.toNat], ?_, typed h1, findRules_keys hns (show grammar.isSideType 3 = false by decide) (keys_same (.inl h1) h1 h2)⟩
        have : ∀ c ∈ "(),=*/^+-".toList, kindToken 3 [c.toNat] ∈ kinds := by decide
        exact this c hc
      · exact ⟨kindToken 4 [45], by simp [kinds], typed h1, findRules_keys hns (by decide) (keys_same (.inr h1) h1 h2)⟩
    · refine ⟨kindToken (-3) [], by simp [kinds], typed h, findRules_keys (by rw [h]; decide) (by decide) ?_⟩
      simp [possibleRuleKeys, h, eoiTokenType]

theorem lexed_content {t : Token} (h : Lexed t) : t.content ≠ [] := by
  rcases h with ⟨-, -, c, hc, -⟩ | ⟨-, -, c, cs, hc, -⟩ | ⟨-, -, c, -, hc⟩ | ⟨-, -, hc⟩ <;> intro e <;> rw [e] at hc <;> cases hc

theorem lexed_named {t : Token} (h : Lexed t) (ht : t.type = 1 ∨ t.type = 2) : t.typeName = "name" ∨ t.typeName = "number" := by
  rcases h with ⟨-, h, -⟩ | ⟨-, h, -⟩ | ⟨h, -⟩ | ⟨h, -⟩
  · exact .inr h
  · exact .inl h
  · omega
  · omega

theorem applyRule_ready (h : Hooked env A num) {pc : PC σ} {tok : Option Token} (hg : Given tok) {node : NodeRec} {rest : List NodeRec}
    {upper : List Nat → List Nat} {rules : List Rule} (hr : findRules grammar upper tok node.state = some rules) {r : Rule} (hm : r ∈ rules)
    (hs : pc.stack = node :: rest) (hR : Ready (objectsAfter (hooks A num) pc.log) pc.log.length none pc.stack)
    {res : Except PErr (PC σ × Bool)} (hp : applyRule env pc tok r = .done res) :
    (∃ x, res = .error (.hook x) ∧ Fair num (tok = some ·) x) ∨
      ∃ pc' b, res = .ok (pc', b) ∧ Calm A num pc' := by
  have hmem := state_mem hr
  obtain ⟨k, hk, htype, hsame⟩ := given_type (upper := upper) hg
  have hok := rules_ok k hk _ hmem rules (by rw [← hsame]; exact hr) r hm
  rw [hs] at hR
  obtain ⟨h1, id, inst, h2, h3, h4, h5, h6, h7, h8⟩ := hR
  have hne : node.state ≠ -1 := by
    obtain ⟨n, -, hn⟩ := List.mem_map.mp hmem
    rw [← hn]
    simp
  have how : owner node.state = node.index := h6.resolve_left hne
  have hfull : late node.state = true → filled inst = true := fun hl => by
    rcases h7 hl with h | ⟨c, hc, -⟩
    · exact h
    · cases hc
  unfold ruleOk at hok
  rw [Bool.and_eq_true] at hok
  obtain ⟨hown, hok⟩ := hok
  rw [applyRule.eq_def, hs] at hp
  dsimp only at hp
  obtain ⟨f, hf, hp⟩ := orPanic_done.mp hp
  obtain ⟨f1, f2⟩ := moveFrame_spec hf
  have hstate : f.state = -1 ∨ owner f.state = f.index := by
    rw [f2, f1, ← how]
    simpa [Bool.or_eq_true] using hown
  have mid : ∀ {res1 : Except PErr (PC σ)}, (if r.node ≠ sameNode then
          (if 0 ≤ r.node then pushNode env { pc with stack := { node with toFrame := f } :: rest, steps := pc.steps ++ [(tok, r)] } r.node.toNat tok
            else .panic)
        else if consumes r tok then
          handleNodeToken env { pc with stack := { node with toFrame := f } :: rest, steps := pc.steps ++ [(tok, r)] } tok
        else .done (.ok { pc with stack := { node with toFrame := f } :: rest, steps := pc.steps ++ [(tok, r)] })) = .done res1 →
      (∃ x, res1 = .error (.hook x) ∧ Fair num (tok = some ·) x) ∨
        ∃ pcm, res1 = .ok pcm ∧ Ready (objectsAfter (hooks A num) pcm.log) pcm.log.length none pcm.stack := by
    intro res1 hp1
    by_cases hn : r.node = -1
    · rw [if_neg (not_not_intro (show r.node = sameNode from hn))] at hp1
      rw [if_pos hn, Bool.and_eq_true] at hok
      obtain ⟨hok1, hok2⟩ := hok
      have hlate : late f.state = true → filled inst = true ∨
          (node.index = 6 ∧ r.token ≠ -1 ∧ k.any (fun t => decide (t.type = 1 ∨ t.type = 2)) = true) := by
        intro hl
        rw [f2] at hl
        rw [show after r node.state = after r node.toFrame.state from rfl, hl] at hok1
        simp only [Bool.not_true, Bool.false_or, Bool.or_eq_true, Bool.and_eq_true, decide_eq_true_eq] at hok1
        rcases hok1 with (h | h) | ⟨⟨h, h'⟩, h''⟩
        · exact .inl (hfull h)
        · rw [how] at h
          exact .inl (easy_filled h5 h)
        · exact .inr ⟨how ▸ h, h', h''⟩
      by_cases hcs : consumes r tok = true
      · rw [if_pos hcs] at hp1
        cases tok with
        | none =>
          have hkn : k = none := by simpa using htype
          rw [handleNodeToken.eq_def] at hp1
          cases hp1
          refine .inr ⟨_, rfl, h1, id, inst, h2, h3, h4, by rw [f1]; exact h5, hstate, fun hl => .inl ?_, by rw [f1]; exact h8⟩
          rcases hlate hl with h | ⟨-, -, h⟩
          · exact h
          · rw [hkn] at h; cases h
        | some t =>
          obtain ⟨u, rfl, hu⟩ : ∃ u, k = some u ∧ u.type = t.type := by simpa using htype
          have htok : r.token ≠ -1 := by
            rcases (consumes_iff r _).mp hcs with h | ⟨-, h⟩
            · cases h
            · exact h
          have hlex : Lexed t := by
            rcases hg t rfl with h | h
            · exact h
            · simp only [Bool.or_eq_true, decide_eq_true_eq, Option.all_some] at hok2
              rcases hok2 with h' | h'
              · exact absurd h' htok
              · exact absurd (hu.trans h) h'
          refine (nodeToken_ready h (lexed_notSide hlex) (lexed_content hlex) rfl ?_ hp1).imp_left fun ⟨x, hx, hy⟩ => ⟨x, hx, t, rfl, hlex, hy⟩
          refine ⟨h1, id, inst, h2, h3, h4, by rw [f1]; exact h5, hstate, fun hl => ?_, by rw [f1]; exact h8⟩
          rcases hlate hl with h | ⟨h, -, h'⟩
          · exact .inl h
          · refine .inr ⟨by rw [f1]; exact h, ?_⟩
            simp only [Option.any_some, decide_eq_true_eq] at h'
            rw [hu] at h'
            exact lexed_named hlex h'
      · rw [if_neg hcs] at hp1
        cases hp1
        refine .inr ⟨_, rfl, h1, id, inst, h2, h3, h4, by rw [f1]; exact h5, hstate, fun hl => .inl ?_, by rw [f1]; exact h8⟩
        rcases hlate hl with h | ⟨-, h, -⟩
        · exact h
        · exact absurd ((consumes_iff r tok).mpr (.inr ⟨hn, h⟩)) hcs
    · rw [if_pos (show r.node ≠ sameNode from hn)] at hp1
      rw [if_neg hn, Bool.and_eq_true, decide_eq_true_eq] at hok
      obtain ⟨⟨hok0, hok8⟩, hok1⟩ := hok
      rw [if_pos hok0] at hp1
      refine .inr (pushNode_ready h (by omega) ?_ hp1)
      refine ⟨h1, id, inst, h2, h3, h4, by rw [f1]; exact h5, hstate, fun hl => ?_, by rw [f1]; exact h8⟩
      rw [f2] at hl
      rw [show after r node.state = after r node.toFrame.state from rfl, hl] at hok1
      simp only [Bool.not_true, Bool.false_or, Bool.or_eq_true] at hok1
      rcases hok1 with (h | h) | h
      · exact .inl (hfull h)
      · rw [how] at h
        exact .inl (easy_filled h5 h)
      · exact .inr ⟨_, rfl, by rw [f1]; rw [how] at h; exact h⟩
  rcases bindRes_done.mp hp with ⟨pcm, hm1, hp⟩ | ⟨e, hm1, he⟩
  · rcases mid hm1 with ⟨x, hx, -⟩ | ⟨pcm', hx, hRm⟩
    · cases hx
    · cases hx
      have fin : ∀ {res1 : Except PErr (PC σ)}, (match pcm.stack with
          | [] => .panic
          | top :: _ => if top.state = finalState then popNode env pcm else .done (.ok pcm)) = Run.done res1 →
          ∃ pc', res1 = .ok pc' ∧ Calm A num pc' := by
        intro res1 hq
        split at hq
        · cases hq
        · rename_i hst
          split at hq
          · exact popNode_ready h hRm hq
          · cases hq; exact ⟨_, rfl, hRm, fun h => by rw [hst] at h; cases h⟩
      rcases bindRes_done.mp hp with ⟨pcf, hm2, hp⟩ | ⟨e, hm2, he⟩
      · obtain ⟨pc', hx, hRf⟩ := fin hm2
        cases hx
        cases hp
        exact .inr ⟨_, _, rfl, hRf⟩
      · obtain ⟨pc', hx, hRf⟩ := fin hm2
        cases hx
  · rcases mid hm1 with ⟨x, hx, hf⟩ | ⟨pcm', hx, -⟩
    · cases hx
      cases he
      exact .inl ⟨x, rfl, hf⟩
    · cases hx

/-! ### Parses -/

theorem ready_inv (h : Hooked env A num) (hf : Spec.Feeds env Given) :
    LoopInv env
      (fun pc tok => (Follows env pc (tok :: pc.tokens) ∧ Given tok ∧ ∀ t ∈ pc.tokens, Given t) ∧ Calm A num pc)
      (fun pc => (Follows env pc pc.tokens ∧ ∀ t ∈ pc.tokens, Given t) ∧ Calm A num pc) := by
  have hsafe : SafeLookaheadOn Given env.g env.upper := by rw [h.g]; exact calc_safe _
  refine ⟨?_, ?_⟩
  · intro fuel pc pc' tok node rest hJ hs hn
    refine ⟨(follows_inv_on hf hsafe).token hJ.1 hs hn, ?_⟩
    obtain ⟨src, ts, dl, rfl, -⟩ := nextToken_spec hn
    exact hJ.2
  · intro fuel pc pc1 pc2 tok node rest r b hI hs h1 h2
    have h3 := (follows_inv_on hf hsafe).step hI.1 hs h1 h2
    obtain ⟨rules, h4, h5⟩ := follows_rule_on hf hsafe hI.1.1 hI.1.2.1 hI.1.2.2 hs h1
    rw [h.g] at h4
    obtain ⟨src, ap, dl, rfl⟩ := nextRule_spec h1
    rcases applyRule_ready h hI.1.2.1 h4 h5 (by exact hs) (by exact hI.2.1) h2 with ⟨x, hx, -⟩ | ⟨pc', b', hx, hR⟩
    · cases hx
    · cases hx
      cases b with
      | true => exact ⟨h3, hR⟩
      | false => exact ⟨h3, hR⟩

/-- Errors met while reading are errors of the lexer. -/
theorem nextToken_hook (hpull : ∀ src types src' x, env.pull src types ≠ .done (src', .error (.hook x))) {fuel : Nat} {pc pc' : PC σ}
    {types : TokenTypeSet} {x : Nat} : nextToken env fuel pc types ≠ .done (pc', .error (.hook x)) := by
  intro h
  rw [nextToken.eq_def] at h
  split at h
  · cases h
  · clear * - h hpull
    induction fuel generalizing pc with
    | zero => simp [nextLoop] at h
    | succ fuel ih =>
      rw [nextLoop, bindRun_done] at h
      obtain ⟨⟨src, res⟩, h1, h⟩ := h
      cases res with
      | error e => cases h; exact hpull _ _ _ _ h1
      | ok t =>
        dsimp only at h
        split at h
        · exact ih h
        · cases h

theorem start_calm (h : Hooked env A num) {src : σ} {tok : Option Token} {pc0 : PC σ} (h0 : pushNode env { src := src } rootNode tok = .done (.ok pc0)) :
    (Follows env pc0 pc0.tokens ∧ ∀ t ∈ pc0.tokens, Given t) ∧ Calm A num pc0 := by
  obtain ⟨pc', hx, hR⟩ := pushNode_ready h (i := 0) (by decide) (pc := { src := src }) trivial h0
  cases hx
  refine ⟨?_, hR, fun h => absurd h (pushNode_ne h0)⟩
  obtain ⟨_, _, _, rfl⟩ := pushNode_spec h0
  exact ⟨follows_nil rfl, by simp⟩

/-- There is a result. -/
theorem result_there (h : Hooked env A num) (hf : Spec.Feeds env Given) {fuel : Nat} {src : σ} {pos : SrcPos} {pc : PC σ}
    (hp : parse env fuel src pos = .done (.ok pc)) :
    ∃ k e, pc.lastResult = some k ∧ (objectsAfter (hooks A num) pc.log).vals k = some (some e) := by
  obtain ⟨pc1, tok, b, h1, h2, h3⟩ := parse_inv (ready_inv h hf) hp fun pc0 h0 => start_calm h h0
  have h4 : Calm A num pc1 := by
    cases b with
    | true => exact h2.2
    | false => exact h2.2
  obtain ⟨_, _, _, _, rfl, -⟩ := finish_spec h3
  exact h4.2 h1

/-- Hooks do not panic; their errors are about tokens an invariant holds for. -/
theorem hooks_fair_at (h : Hooked env A num) (hf : Spec.Feeds env Given) {I : PC σ → Option Token → Prop} {J : PC σ → Prop}
    (hinv : LoopInv env I J) {K : Token → Prop} (hK : ∀ pc t, I pc (some t) → K t)
    (hpull : ∀ src types src' x, env.pull src types ≠ .done (src', .error (.hook x))) {fuel : Nat} {src : σ} {pos : SrcPos} {x : Nat}
    (hJ : ∀ pc0, pushNode env { src := src } rootNode (some { type := anyToken, typeName := "", content := [], pos := pos }) = .done (.ok pc0) → J pc0)
    (hp : parse env fuel src pos = .done (.error (.hook x))) : Fair num K x := by
  have hsafe : SafeLookaheadOn Given env.g env.upper := by rw [h.g]; exact calc_safe _
  rcases parse_err (loopInv_and (ready_inv h hf) hinv) hp (fun pc0 h0 => ⟨start_calm h h0, hJ pc0 h0⟩) with h1 | h1 | ⟨pc1, tok, b, -, h2⟩
  · obtain ⟨pc', hx, -⟩ := pushNode_ready h (i := 0) (by decide) (pc := { src := src }) trivial h1
    cases hx
  · generalize he : PErr.hook x = e at h1
    cases h1 with
    | @rule _ pc pc1 tok node rest r _ hI' hs h1 h2 =>
      obtain ⟨hI, hI'⟩ := hI'
      obtain ⟨rules, h4, h5⟩ := follows_rule_on hf hsafe hI.1.1 hI.1.2.1 hI.1.2.2 hs h1
      rw [h.g] at h4
      obtain ⟨src, ap, dl, rfl⟩ := nextRule_spec h1
      rcases applyRule_ready h hI.1.2.1 h4 h5 (by exact hs) (by exact hI.2.1) h2 with ⟨y, hx, hy⟩ | ⟨pc', b', hx, hR⟩
      · cases hx
        cases he
        obtain ⟨t, rfl, hy⟩ := hy
        exact ⟨t, hK _ _ hI', hy⟩
      · cases hx
    | read _ h2 =>
      subst he
      exact absurd h2 (nextToken_hook hpull)
    | token _ _ => unfold unexpErr at he; split at he <;> cases he
    | next _ _ _ => unfold unexpErr at he; split at he <;> cases he
  · rw [finish, bindRun_done] at h2
    obtain ⟨pc2, -, h2⟩ := h2
    split at h2
    · clear * - h2 hpull
      induction fuel generalizing pc2 with
      | zero => simp [restLoop] at h2
      | succ fuel ih =>
        rw [restLoop, bindRun_done] at h2
        obtain ⟨⟨pc1, r⟩, h1, h⟩ := h2
        rcases r with _ | (_ | t)
        · cases h
          exact absurd h1 (nextToken_hook hpull)
        · cases h
        · dsimp only at h
          split at h
          · cases h
          · split at h
            · exact ih _ h
            · cases h
    · cases h2

/-- Hooks do not panic. -/
theorem hooks_fair (h : Hooked env A num) (hf : Spec.Feeds env Given)
    (hpull : ∀ src types src' x, env.pull src types ≠ .done (src', .error (.hook x))) {fuel : Nat} {src : σ} {pos : SrcPos} {x : Nat}
    (hp : parse env fuel src pos = .done (.error (.hook x))) : Told num x :=
  (hooks_fair_at h hf (I := fun _ _ => True) (J := fun _ => True) ⟨fun _ _ _ => trivial, by
    intros; unfold Phase; split <;> trivial⟩
    (K := fun _ => True) (fun _ _ _ => trivial) hpull (fun _ _ => trivial) hp).told

end Verif.Proof.Calc
