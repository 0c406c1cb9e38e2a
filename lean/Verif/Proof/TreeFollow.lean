/-
The tree built by applied rules: content of open nodes without side tokens.
-/
import Verif.Proof.ParseTree
import Verif.Spec.TreeOnly

namespace Verif.Proof

open Verif.Model Verif.Spec
open Verif.Model.Tree (bindRun)

variable {σ : Type}

theorem dropSides_append (g : Grammar) (a b : List Item) : dropSides g (a ++ b) = dropSides g a ++ dropSides g b := by
  induction a with
  | nil => rw [dropSides]; rfl
  | cons x a ih =>
    cases x with
    | tok t =>
      rw [List.cons_append, dropSides, dropSides]
      split
      · exact ih
      · rw [ih]; rfl
    | node i st its => rw [List.cons_append, dropSides, dropSides, ih]; rfl

theorem dropSides_toks (g : Grammar) (ts : List Token) (h : ∀ t ∈ ts, g.isSideType t.type = true) : dropSides g (ts.map Item.tok) = [] := by
  induction ts with
  | nil => rw [List.map_nil, dropSides]
  | cons t ts ih => rw [List.map_cons, dropSides, if_pos (h t (by simp))]; exact ih fun t ht => h t (by simp [ht])

/-- An open node: state, index, initial token, and content without side tokens. -/
structure Part where
  state : Int
  index : Nat
  start : Option Token
  items : List Item

/-- Finished nodes on the top are moved into their parents; the result is either the rest of nodes or the content of the root node. -/
def shut (extra : List Item) : List Part → List Part ⊕ List Item
  | [] => .inr []
  | [p] => if p.state = finalState then .inr (p.items ++ extra) else .inl [{ p with items := p.items ++ extra }]
  | p :: q :: rest => if p.state = finalState then shut [.node p.index p.start (p.items ++ extra)] (q :: rest)
    else .inl ({ p with items := p.items ++ extra } :: q :: rest)

theorem shut_open {p : Part} {rest : List Part} (h : p.state ≠ finalState) : shut [] (p :: rest) = .inl (p :: rest) := by
  cases rest <;> simp [shut, h]

theorem shut_extra (p : Part) (x : List Item) (rest : List Part) : shut x (p :: rest) = shut [] ({ p with items := p.items ++ x } :: rest) := by
  cases rest <;> simp [shut]

theorem shut_closed {p q : Part} {rest : List Part} (h : p.state = finalState) :
    shut [] (p :: q :: rest) = shut [] ({ q with items := q.items ++ [.node p.index p.start p.items] } :: rest) := by
  rw [shut, if_pos h, shut_extra, List.append_nil]

/-- Any rule. -/
abbrev anyRule : Option Token → Int → Rule → Prop := fun _ _ _ => True

/-- Open nodes of the parser as parts. -/
def partsOf (g : Grammar) : List NodeRec → List (List Item × Option Token) → List Part
  | n :: rest, (its, st) :: infos => ⟨n.state, n.index, st, dropSides g its⟩ :: partsOf g rest infos
  | _, _ => []

/-- The parser has built the given parts. -/
def Shown (env : PEnv σ) (st0 : Option Token) (stack : List NodeRec) (log : List Event) (last : Option Nat) : List Part ⊕ List Item → Prop
  | .inl ps => ∃ n rest infos, stack = n :: rest ∧ Open env anyRule st0 stack infos log ∧ partsOf env.g stack infos = ps ∧
      (∀ m ∈ rest, m.sides = []) ∧ ∀ t ∈ n.sides, env.g.isSideType t.type = true
  | .inr its0 => stack = [] ∧ ∃ its, Closed env anyRule st0 its log last ∧ dropSides env.g its = its0

section

variable {env : PEnv σ} {st0 : Option Token}

theorem partsOf_congr {g : Grammar} {n n' : NodeRec} {rest : List NodeRec} {infos : List (List Item × Option Token)} (h1 : n'.state = n.state)
    (h2 : n'.index = n.index) : partsOf g (n' :: rest) infos = partsOf g (n :: rest) infos := by
  cases infos with
  | nil => rfl
  | cons x infos => rw [partsOf, partsOf, h1, h2]

theorem popLoop_shown {sides : List Token} (hsides : ∀ t ∈ sides, env.g.isSideType t.type = true) (stack : List NodeRec)
    {infos : List (List Item × Option Token)} {log log' : List Event} {last last' : Option Nat} {stack' : List NodeRec}
    (ho : Open env anyRule st0 stack infos log) (hrest : ∀ m ∈ stack, m.sides = [])
    (h : popLoop env sides stack log last = .ok (stack', log', last')) :
    Shown env st0 stack' log' last' (shut [] (partsOf env.g stack infos)) := by
  induction stack generalizing infos log last with
  | nil => cases ho
  | cons node rest ih =>
    obtain ⟨its, st, infos', rfl⟩ := ho.info
    rw [popLoop.eq_def] at h
    dsimp only at h
    rw [partsOf]
    split at h
    · cases h
      rename_i hn
      rw [shut_open (by simpa using hn)]
      refine ⟨_, _, (its, st) :: infos', rfl, ho.extend rfl rfl (fun _ h => h) (fun _ h => h), ?_, fun m hm => hrest m (by simp [hm]), hsides⟩
      simp [partsOf]
    · rename_i hn
      have hn : node.state = -1 := by simpa [finalState] using hn
      split at h
      · cases h
      · rename_i log1 hlog1
        split at h
        · cases h
        · rename_i results log2 last2 hend
          obtain ⟨he1, he2⟩ := endHooks_spec node.hooks 0 hend
          cases rest with
          | nil =>
            dsimp only at h
            simp only [List.isEmpty_nil, if_true] at hlog1
            cases h
            have hcalls := send_spec _ hlog1
            have hev : sides.flatMap (tokenEvents node.hooks) =
                sides.flatMap fun t => told (fun l i => .token l i t) 0 node.hooks := by
              congr 1; funext t; exact tokenEvents_eq _ _
            rw [hev] at hcalls
            have hinfo : infos' = [] := by cases ho; rfl
            subst hinfo
            have ho2 := Open.sides sides ho (n' := node) rfl rfl rfl hsides hcalls
            cases ho2 with
            | root h1 h2 h3 h4 h5 =>
              have hshut : shut [] (⟨node.state, node.index, st0, dropSides env.g its⟩ :: partsOf env.g [] []) = .inr (dropSides env.g its) := by
                simp [shut, partsOf, hn, finalState]
              rw [hshut]
              refine ⟨rfl, _, ⟨node.hooks, results, .mk (by rw [← h1]; exact h2) h3 he1, ⟨_, by rw [← h1]; exact h4, by rw [← hn]; exact h5⟩, ?_⟩, ?_⟩
              · intro hw i hs hhooks
                rw [hhooks] at he1 he2
                cases he1 with
                | some ha hb =>
                  simp [lastOf, hw] at he2
                  exact ⟨_, by rw [he2]⟩
              · rw [dropSides_append, dropSides_toks _ _ hsides, List.append_nil]
          | cons parent rest' =>
            simp only [List.isEmpty_cons, Bool.false_eq_true, if_false] at hlog1
            cases hlog1
            dsimp only at h
            split at h
            · cases h
            · rename_i log3 hlog3
              have hcalls := send_spec _ hlog3
              rw [liveHooks_eq parent.hooks (fun l i => .handleNode l i node.index ((results[l]?).getD none))] at hcalls
              have hinfo : ∃ pits pst infos2, infos' = (pits, pst) :: infos2 := by
                cases ho with
                | nested h1 =>
                  obtain ⟨a, b, c, rfl⟩ := h1.info
                  exact ⟨_, _, _, rfl⟩
              obtain ⟨pits, pst, infos2, rfl⟩ := hinfo
              have ho2 := ho.close hn he1 hcalls
              have := ih ho2 (fun m hm => hrest m (by simp [List.mem_cons.mp hm])) h
              rw [partsOf] at this ⊢
              rw [shut_closed (by exact hn)]
              rw [dropSides_append, dropSides, dropSides] at this
              exact this

theorem popNode_shown {pc pc' : PC σ} {ps : List Part} (hi : Shown env st0 pc.stack pc.log pc.lastResult (.inl ps))
    (h : popNode env pc = .done (.ok pc')) : Shown env st0 pc'.stack pc'.log pc'.lastResult (shut [] ps) := by
  rw [popNode] at h
  obtain ⟨node, rest, infos, hs, h1, h2, h3, h4⟩ := hi
  rw [hs] at h h1 h2
  dsimp only at h
  split at h
  · cases h
  · rename_i stack log last hp
    cases h
    have ho : Open env anyRule st0 ({ node with sides := [] } :: rest) infos pc.log := by
      obtain ⟨its, st, infos', rfl⟩ := h1.info
      exact h1.extend rfl rfl (fun _ h => h) (fun _ h => h)
    have := popLoop_shown h4 _ ho (fun m hm => by
      rcases List.mem_cons.mp hm with rfl | hm
      · rfl
      · exact h3 m hm) hp
    rw [partsOf_congr (n := node) (n' := { node with sides := [] }) rfl rfl, h2] at this
    exact this

/-- Parts after a rule. -/
def grown (g : Grammar) (tok : Option Token) (r : Rule) (first : Nat) : List Part → List Part
  | [] => []
  | p :: rest => let p' := { p with state := after r p.state }
    if r.node ≠ sameNode then ⟨first, r.node.toNat, tok, []⟩ :: p' :: rest
    else match tok with
      | some t => if r.token ≠ anyToken ∧ g.isSideType t.type = false then { p' with items := p.items ++ [.tok t] } :: rest else p' :: rest
      | none => p' :: rest

theorem applyRule_shown {pc pc' : PC σ} {tok : Option Token} {r : Rule} {b : Bool} {first : Nat}
    (hf : 0 ≤ r.node → env.g.firsts[r.node.toNat]? = some first) {ps : List Part}
    (hi : Shown env st0 pc.stack pc.log pc.lastResult (.inl ps)) (h : applyRule env pc tok r = .done (.ok (pc', b))) :
    Shown env st0 pc'.stack pc'.log pc'.lastResult (shut [] (grown env.g tok r first ps)) := by
  obtain ⟨node, rest, infos, hs, ho, hps, hrest, hside⟩ := hi
  obtain ⟨its, st, infos', rfl⟩ := ho.info
  rw [hs] at ho hps
  rw [partsOf] at hps
  subst hps
  rw [applyRule, hs] at h
  obtain ⟨f, hfr, h⟩ := orPanic_done.mp h
  obtain ⟨hf1, hf2⟩ := moveFrame_spec hfr
  dsimp only at h
  rw [bindRes_ok] at h
  obtain ⟨pc1, h1, h⟩ := h
  rw [bindRes_ok] at h
  obtain ⟨pc2, h2, h⟩ := h
  cases h
  have hmid : Shown env st0 pc1.stack pc1.log pc1.lastResult
      (.inl (grown env.g tok r first (⟨node.state, node.index, st, dropSides env.g its⟩ :: partsOf env.g rest infos'))) := by
    clear h2
    rw [grown.eq_def]
    dsimp only
    split at h1
    · rename_i hnode
      rw [if_pos hnode]
      split at h1
      · rename_i hpos
        rw [pushNode] at h1
        dsimp only at h1
        have hside' : sideEvents ({ node with toFrame := f } : NodeRec) = sideEvents node := rfl
        rw [hside'] at h1
        split at h1
        · cases h1
        · rename_i log1 hlog1
          split at h1
          · cases h1
          · rename_i log2 hlog2
            rw [addNode] at h1
            split at h1
            · cases h1
            · rename_i hooks log3 hmake
              obtain ⟨first', hfirst, h1⟩ := orPanic_done.mp h1
              obtain ⟨gs, hgs, h1⟩ := orPanic_done.mp h1
              cases h1
              rw [hf hpos] at hfirst
              cases hfirst
              have hc1 := send_spec _ hlog1
              rw [sideEvents_eq] at hc1
              have hc2 := send_spec _ hlog2
              rw [liveHooks_eq _ (fun l i => .newNode l i r.node.toNat tok)] at hc2
              have ho1 : Open env anyRule st0 (node :: rest) ((its ++ node.sides.map Item.tok, st) :: infos') log1 :=
                Open.sides node.sides ho rfl rfl rfl hside hc1
              refine ⟨_, _, ([], tok) :: (its ++ node.sides.map Item.tok, st) :: infos', rfl, ?_, ?_, ?_, ?_⟩
              · refine Open.nested (s1 := node.state) (r := r) (f := first) (log0 := log1) ?_ trivial ?_ ?_ hc2
                  (makeHooks_spec _ hmake) .nil (hf hpos) .nil
                · exact ho1.extend (by exact hf1) rfl (fun _ h => h) (fun _ h => h)
                · dsimp only; omega
                · exact hf2
              · rw [partsOf, partsOf, dropSides_append, dropSides_toks _ _ hside, List.append_nil]
                dsimp only
                rw [hf1, hf2, dropSides]
              · intro m hm
                rcases List.mem_cons.mp hm with rfl | hm
                · rfl
                · exact hrest m hm
              · intro t ht; cases ht
      · cases h1
    · rename_i hnode
      rw [if_neg hnode]
      have hnode : r.node = -1 := by simpa [sameNode] using hnode
      split at h1
      · rename_i hcons
        cases tok with
        | none =>
          cases h1
          refine ⟨_, _, (its, st) :: infos', rfl, ?_, ?_, hrest, hside⟩
          · refine ho.extend hf1 rfl (fun _ hw => ?_) (fun _ h => h)
            rw [show ({ node with toFrame := f } : NodeRec).state = after r node.state from hf2]
            exact .skip hw trivial hnode (.inr rfl)
          · rw [partsOf]
            dsimp only
            rw [hf1, hf2]
        | some t =>
          have hany : r.token ≠ -1 := by
            rw [consumes_iff] at hcons
            rcases hcons with h | h
            · cases h
            · exact h.2
          rw [handleNodeToken.eq_def] at h1
          dsimp only at h1 ⊢
          split at h1
          · rename_i hst
            cases h1
            rw [if_neg (by rw [hst]; simp)]
            refine ⟨_, _, (its, st) :: infos', rfl, ?_, ?_, hrest, ?_⟩
            · refine ho.extend hf1 rfl (fun _ hw => ?_) (fun _ h => h)
              rw [show ({ node with toFrame := f, sides := node.sides ++ [t] } : NodeRec).state = after r node.state from hf2]
              exact .onSide hw trivial hnode hst
            · rw [partsOf]
              dsimp only
              rw [hf1, hf2]
            · intro t' ht'
              rcases List.mem_append.mp ht' with h | h
              · exact hside t' h
              · rw [List.mem_singleton.mp h]; exact hst
          · rename_i hst
            split at h1
            · cases h1
            · rename_i log1 hlog1
              cases h1
              have hc := send_spec _ hlog1
              have hside' : sideEvents ({ node with toFrame := f } : NodeRec) = sideEvents node := rfl
              rw [hside', sideEvents_eq, tokenEvents_eq] at hc
              obtain ⟨hc1, hc2⟩ := calls_append hc
              have ho1 : Open env anyRule st0 (node :: rest) ((its ++ node.sides.map Item.tok, st) :: infos') _ :=
                Open.sides node.sides ho rfl rfl rfl hside hc1
              rw [if_pos ⟨hany, by simpa using hst⟩]
              refine ⟨_, _, ((its ++ node.sides.map Item.tok) ++ [.tok t], st) :: infos', rfl, ?_, ?_, hrest, ?_⟩
              · refine ho1.extend hf1 rfl (fun _ hw => ?_) (fun _ h => .tok h hc2)
                rw [show ({ node with toFrame := f, sides := [] } : NodeRec).state = after r node.state from hf2]
                exact .tok hw trivial hnode hany
              · rw [partsOf, dropSides_append, dropSides_append, dropSides_toks _ _ hside, List.append_nil]
                dsimp only
                rw [hf1, hf2, dropSides, if_neg hst, dropSides]
              · intro t' ht'; cases ht'
      · rename_i hcons
        cases h1
        rw [consumes_iff, not_or] at hcons
        have hany : r.token = anyToken := by
          by_contra hne
          exact hcons.2 ⟨hnode, hne⟩
        have hgoal : ∀ l, (match tok with
            | some t => if r.token ≠ anyToken ∧ env.g.isSideType t.type = false then
                ({ state := after r node.state, index := node.index, start := st, items := dropSides env.g its ++ [.tok t] } : Part) :: l else
                ⟨after r node.state, node.index, st, dropSides env.g its⟩ :: l
            | none => ⟨after r node.state, node.index, st, dropSides env.g its⟩ :: l) =
            ⟨after r node.state, node.index, st, dropSides env.g its⟩ :: l := by
          intro l
          cases tok with
          | none => rfl
          | some t => dsimp only; rw [if_neg (by simp [hany])]
        rw [hgoal]
        refine ⟨_, _, (its, st) :: infos', rfl, ?_, ?_, hrest, hside⟩
        · refine ho.extend hf1 rfl (fun _ hw => ?_) (fun _ h => h)
          rw [show ({ node with toFrame := f } : NodeRec).state = after r node.state from hf2]
          exact .skip (tok := tok) hw trivial hnode (.inl hany)
        · rw [partsOf]
          dsimp only
          rw [hf1, hf2]
  split at h2
  · cases h2
  · rename_i top rest1 hs1
    split at h2
    · exact popNode_shown hmid h2
    · rename_i hfin
      cases h2
      have hm := hmid
      obtain ⟨n, rest2, infos2, hs2, ho2, hp2, -, -⟩ := hmid
      obtain ⟨a, b, c, rfl⟩ := ho2.info
      rw [hs2] at hs1 hp2
      cases hs1
      rw [partsOf] at hp2
      rw [← hp2] at hm ⊢
      rw [shut_open hfin]
      exact hm

/-- The start of a parse. -/
theorem shown_start {src : σ} {tok : Option Token} {pc : PC σ} (h : pushNode env { src := src } rootNode tok = .done (.ok pc)) {first : Nat}
    (hf : env.g.firsts[rootNode]? = some first) :
    Shown env tok pc.stack pc.log pc.lastResult (.inl [⟨first, rootNode, tok, []⟩]) := by
  rw [pushNode] at h
  dsimp only at h
  rw [addNode] at h
  split at h
  · cases h
  · rename_i hooks log hmake
    obtain ⟨first', hfirst, h⟩ := orPanic_done.mp h
    obtain ⟨gs, hgs, h⟩ := orPanic_done.mp h
    cases h
    rw [hf] at hfirst
    cases hfirst
    refine ⟨_, _, [([], tok)], rfl, .root rfl (makeHooks_spec _ hmake) .nil hf .nil, by simp [partsOf, dropSides], ?_, ?_⟩
    · intro m hm; cases hm
    · intro t ht; cases ht

end

end Verif.Proof
