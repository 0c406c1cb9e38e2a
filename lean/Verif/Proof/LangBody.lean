/-
Reading of layers and of the list of definitions of nodes.
-/
import Verif.Proof.LangExpr

namespace Verif.Proof.LangDef

open Verif.Model Verif.Model.LangDef Verif.Spec.LangDef

theorem plain_lexed {l : List (Except LErr LTok)} (h : Plain l) : Lexed l := by
  intro t ht
  obtain ⟨u, hu, h1, -⟩ := h _ ht
  cases hu
  exact h1

theorem plain_tail {x : Except LErr LTok} {l : List (Except LErr LTok)} (h : Plain (x :: l)) : Plain l :=
  fun y hy => h y (by simp [hy])

theorem plain_append {l l' : List (Except LErr LTok)} (h : Plain (l ++ l')) : Plain l' :=
  fun y hy => h y (by simp [hy])

/-- A token of a given kind. -/
theorem match_name {t : LTok} (hl : LexTok t) (hm : Match [Kind.name.text] t) : t = ⟨.name, t.text⟩ := by
  rcases (match_kind _).1 hm with h | h
  · rw [← h]
  · rw [← text_kind hl (by decide) h]

theorem need_get {f f' : Feed} {types : List (List Nat)} {t : LTok} (h : need types f = .done (.ok (t, f'))) (hl : Lexed (rest f))
    (he : ¬ Match types ⟨.eof, []⟩) : rest f = .ok t :: rest f' ∧ LexTok t ∧ Match types t ∧ Lexed (rest f') := by
  obtain ⟨h1, h2⟩ := safe_get (need_safe hl he) h
  refine ⟨h1, hl t (by rw [h1]; simp), h2, ?_⟩
  rw [h1] at hl
  exact lexed_tail hl

theorem need_op {f f' : Feed} {b : Nat} {t : LTok} (h : need [[b]] f = .done (.ok (t, f'))) (hl : Lexed (rest f))
    (hb : b ∈ [40, 41, 123, 125, 91, 93, 61, 124, 44, 59, 64]) : rest f = .ok (op b) :: rest f' ∧ Lexed (rest f') := by
  obtain ⟨h1, h2, h3, h4⟩ := need_get h hl (kinds_no_eof [] [b] (by simp))
  rw [match_ops h2 h3 hb] at h1
  exact ⟨h1, h4⟩

/-! Layers -/

theorem layerArgs_read : ∀ (fuel : Nat) (f : Feed) (as : List (List Nat)) (f' : Feed), Lexed (rest f) →
    layerArgs fuel f = .done (.ok (as, f')) →
    ∃ ts, rest f = ts.map .ok ++ .ok (op 41) :: rest f' ∧ DerivesArgs as ts
  | 0, _, _, _, _, h => by cases h
  | fuel + 1, f, as, f', hl, h => by
    rw [layerArgs, bindL_ok] at h
    obtain ⟨⟨t, f1⟩, h1, h⟩ := h
    obtain ⟨g1, ht, g2, hl1⟩ := need_get h1 hl (kinds_no_eof [.string, .name] [] (by decide))
    dsimp only at h
    rw [orPanic_ok] at h
    obtain ⟨a, ha, h⟩ := h
    have harg : IsArg a t := by
      have hk : t.kind = .string ∨ t.kind = .name := by
        simp only [Match, List.mem_cons, List.not_mem_nil, or_false] at g2
        rcases g2 with (g | g) | (g | g)
        · exact .inl (kind_text_inj g)
        · exact .inr (kind_text_inj g)
        · exact .inr (text_kind ht (by decide) g)
        · exact .inr (text_kind ht (by decide) g)
      rcases hk with hk | hk
      · rw [if_pos hk] at ha
        unfold LexTok at ht
        rw [hk] at ht
        obtain ⟨q, s, hq, hs⟩ := ht
        rw [hs, inner_some] at ha
        cases ha
        exact .inr ⟨q, by rw [← hk, ← hs]⟩
      · rw [if_neg (by rw [hk]; decide)] at ha
        cases ha
        exact .inl (by rw [← hk])
    rw [bindL_ok] at h
    obtain ⟨⟨u, f2⟩, h2, h⟩ := h
    obtain ⟨k1, hu, k2, hl2⟩ := need_get h2 hl1 (kinds_no_eof [] [44, 41] (by simp))
    dsimp only at h
    have hop : u = op 44 ∨ u = op 41 := by
      simp only [Match, List.mem_cons, List.not_mem_nil, or_false] at k2
      rcases k2 with (g | g) | (g | g)
      · exact absurd g kind_text_op
      · exact absurd g kind_text_op
      · exact .inl (text_op hu (by unfold letter; omega) (by omega) g)
      · exact .inr (text_op hu (by unfold letter; omega) (by omega) g)
    rcases hop with rfl | rfl
    · rw [if_neg (by decide), bindL_ok] at h
      obtain ⟨⟨as', f3⟩, h3, h⟩ := h
      cases h
      obtain ⟨ts, e, d⟩ := layerArgs_read fuel f2 as' f3 hl2 h3
      exact ⟨t :: op 44 :: ts, by rw [g1, k1, e]; rfl, .cons harg d⟩
    · rw [if_pos (by decide)] at h
      cases h
      exact ⟨[t], by rw [g1, k1]; rfl, .one harg⟩

/-- No errors of the lexer. -/
def AllOk (l : List (Except LErr LTok)) : Prop := ∀ x ∈ l, ∃ t, x = .ok t

theorem allOk_append {l l' : List (Except LErr LTok)} (h : AllOk (l ++ l')) : AllOk l' := fun y hy => h y (by simp [hy])

theorem allOk_suffix {l l' : List (Except LErr LTok)} (h : AllOk l) (hs : l' <:+ l) : AllOk l' := fun y hy => h y (hs.subset hy)

theorem plain_allOk {l : List (Except LErr LTok)} (h : Plain l) : AllOk l := fun x hx => by
  obtain ⟨t, ht, -⟩ := h x hx
  exact ⟨t, ht⟩

theorem layerCommands_read : ∀ (fuel : Nat) (f : Feed) (cs : List LayerCommand) (f' : Feed), Lexed (rest f) → AllOk (rest f) →
    layerCommands fuel f = .done (.ok (cs, f')) →
    ∃ ts, rest f = ts.map .ok ++ .ok (op 59) :: rest f' ∧ DerivesCommands cs ts
  | 0, _, _, _, _, _, h => by cases h
  | fuel + 1, f, cs, f', hl, ho, h => by
    rw [layerCommands, bindL_ok] at h
    obtain ⟨⟨t, f1⟩, h1, h⟩ := h
    obtain ⟨g1, ht, g2, hl1⟩ := need_get h1 hl (kinds_no_eof [.name] [59] (by decide))
    dsimp only at h
    have hk : t = ⟨.name, t.text⟩ ∨ t = op 59 := by
      simp only [Match, List.mem_append, List.map_cons, List.map_nil, List.mem_cons, List.not_mem_nil, or_false] at g2
      rcases g2 with (g | g) | (g | g)
      · exact .inl (by rw [← kind_text_inj g])
      · exact absurd g kind_text_op
      · exact .inl (by rw [← text_kind ht (by decide) g])
      · exact .inr (text_op ht (by unfold letter; omega) (by omega) g)
    rcases hk with hk | rfl
    · have hkind : t.kind = .name := by rw [hk]
      rw [if_neg (by rw [hkind]; decide), bindL_ok] at h
      obtain ⟨⟨u, f2⟩, h2, h⟩ := h
      obtain ⟨k1, hl2⟩ := need_op h2 hl1 (by simp)
      dsimp only at h
      rw [orPanic_ok] at h
      obtain ⟨⟨r, f3⟩, h3, h⟩ := h
      dsimp only at h
      have ho2 : AllOk (rest f2) := allOk_suffix ho (by rw [g1, k1]; exact ⟨[_, _], rfl⟩)
      have args : rest f3 = rest f2 → bindL (layerArgs fuel f3) (fun (args, f) =>
          bindL (layerCommands fuel f) fun (cs, f) =>
            .done (.ok (({ command := t.text, arguments := args } : LayerCommand) :: cs, f))) = .done (.ok (cs, f')) →
          ∃ ts, rest f = ts.map .ok ++ .ok (op 59) :: rest f' ∧ DerivesCommands cs ts := by
        intro he h
        rw [bindL_ok] at h
        obtain ⟨⟨as, f4⟩, h4, h⟩ := h
        dsimp only at h
        rw [bindL_ok] at h
        obtain ⟨⟨cs', f5⟩, h5, h⟩ := h
        cases h
        obtain ⟨ts, e, d⟩ := layerArgs_read fuel f3 as f4 (by rw [he]; exact hl2) h4
        have hs : rest f4 <:+ rest f2 := ⟨List.map .ok ts ++ [.ok (op 41)], by rw [← he, e]; simp⟩
        obtain ⟨ts', e', d'⟩ := layerCommands_read fuel f4 cs' f5 (lexed_suffix hl2 hs) (allOk_suffix ho2 hs) h5
        refine ⟨_, ?_, .cons (.args t.text d) d'⟩
        rw [g1, k1, ← he, e, e', hk]
        simp
      cases hr : rest f2 with
      | nil =>
        rw [fetch_nil hr] at h3
        simp only [or_true, if_true, Option.some.injEq, Prod.mk.injEq] at h3
        obtain ⟨rfl, rfl⟩ := h3
        dsimp only at h
        rw [bindL_ok] at h
        obtain ⟨⟨cs', f5⟩, h5, h⟩ := h
        obtain ⟨ts', e', d'⟩ := layerCommands_read fuel f2 cs' f5 hl2 ho2 h5
        rw [hr] at e'
        simp at e'
      | cons x l =>
        obtain ⟨v, rfl⟩ := ho2 x (by rw [hr]; simp)
        by_cases hm : Match [opRBrace] v
        · obtain ⟨f4, q1, q2⟩ := fetch_match hr hm false
          rw [q1] at h3
          cases h3
          dsimp only at h
          rw [bindL_ok] at h
          obtain ⟨⟨cs', f5⟩, h5, h⟩ := h
          cases h
          have hs : rest f3 <:+ rest f2 := by rw [hr, q2]; exact List.suffix_cons _ _
          obtain ⟨ts', e', d'⟩ := layerCommands_read fuel f3 cs' f5 (lexed_suffix hl2 hs) (allOk_suffix ho2 hs) h5
          have hv : v = op 41 := match_ops (hl2 v (by rw [hr]; simp)) hm (by simp)
          refine ⟨_, ?_, .cons (.empty t.text) d'⟩
          rw [g1, k1, hr, hv, ← q2, e', hk]
          simp
        · obtain ⟨-, f4, q1, q2⟩ := fetch_other hr (lexTok_eof (hl2 v (by rw [hr]; simp))) hm
          rw [q1] at h3
          cases h3
          exact args q2 h
    · rw [if_pos (show (op 59).kind = .op from rfl)] at h
      cases h
      exact ⟨[], by rw [g1]; rfl, .nil⟩

theorem parseLayerDef_read {fuel : Nat} {t : LTok} {c c' : Ctx} {f f' : Feed} (hl : Lexed (rest f)) (ho : AllOk (rest f)) (ht : LexTok t)
    (h : parseLayerDef fuel t c f = .done (.ok (c', f'))) :
    ∃ l ts, t :: ts = (t :: ts) ∧ .ok t :: rest f = (t :: ts).map .ok ++ rest f' ∧ DerivesLayer l (t :: ts) ∧
      c' = { c with layers := c.layers ++ [l] } := by
  unfold parseLayerDef at h
  split at h
  · cases h
  next hop =>
  simp only [ne_eq, not_not] at hop
  rw [bindL_ok] at h
  obtain ⟨⟨n, f1⟩, h1, h⟩ := h
  obtain ⟨g1, hn, g2, hl1⟩ := need_get h1 hl (kinds_no_eof [.name] [] (by decide))
  dsimp only at h
  rw [bindL_ok] at h
  obtain ⟨⟨cs, f2⟩, h2, h⟩ := h
  cases h
  have hs : rest f1 <:+ rest f := by rw [g1]; exact List.suffix_cons _ _
  obtain ⟨ts, e, d⟩ := layerCommands_read fuel f1 cs f2 hl1 (allOk_suffix ho hs) h2
  have htop : t = op 64 := text_op ht (by unfold letter; omega) (by omega) hop
  refine ⟨⟨n.text, cs⟩, ⟨.name, n.text⟩ :: ts ++ [op 59], rfl, ?_, ?_, rfl⟩
  · rw [g1, e, match_name hn g2]; simp
  · rw [htop]
    exact .mk n.text d

/-! Definitions of nodes -/

theorem idx_name {c : Ctx} {n : List Nat} {i : Nat} (h : nodeIndex c n = some i) : (nodeNames c)[i]? = some n := by
  rw [nodeIndex_names] at h
  unfold ctxNames namesOf at h
  dsimp only at h
  rw [List.findIdx?_eq_some_iff_getElem] at h
  obtain ⟨hi, hp, -⟩ := h
  simp only [decide_eq_true_eq] at hp
  rw [List.getElem?_eq_getElem hi, hp]

/-- Effect of reading items of the second part of a description. -/
structure BodyOk (c0 : Ctx) (items : List BodyItem) (c : Ctx) : Prop where
  same : c = { c0 with nodes := c.nodes, tokens := c.tokens, literalIndex := c.literalIndex, layers := c.layers }
  names : nodeNames c = enlist [] (items.flatMap BodyItem.names)
  tokens : c.tokens = enlistLits c0.tokens (items.flatMap BodyItem.lits)
  layers : c.layers = c0.layers ++ items.flatMap BodyItem.layers
  inv : BInv c
  undef : ∀ (i : Nat) (n : List Nat), (nodeNames c)[i]? = some n → n ∉ items.flatMap BodyItem.defined → depsAt c i = ∅ ∧ chunkAt c i = none
  defined : ∀ n es, BodyItem.node n es ∈ items → ∃ i chs, nodeIndex c n = some i ∧ Expr.chunks (ctxNames c) es = some chs ∧
    chunkAt c i = some (.group chs false false) ∧ depsAt c i = Chunk.nodesOf chs
  nodup : (items.flatMap BodyItem.defined).Nodup
  types : ∀ n es, BodyItem.node n es ∈ items → ∀ m ∈ Expr.typesOf es, Usable c0.tokens m
  lits : c0.restrictLiterals = true → c.tokens = c0.tokens

theorem BodyOk.layer {c0 c : Ctx} {items : List BodyItem} (h : BodyOk c0 items c) (l : LayerDef) :
    BodyOk c0 (items ++ [.layer l]) { c with layers := c.layers ++ [l] } where
  same := by
    have := h.same
    rw [this]
  names := by rw [List.flatMap_append]; simpa [BodyItem.names, nodeNames] using h.names
  tokens := by rw [List.flatMap_append]; simpa [BodyItem.lits] using h.tokens
  layers := by rw [List.flatMap_append]; simp [BodyItem.layers, h.layers]
  inv := ⟨h.inv.token, h.inv.literal⟩
  undef := fun i n hi hn => h.undef i n hi (by rw [List.flatMap_append] at hn; simpa [BodyItem.defined] using hn)
  defined := fun n es he => h.defined n es (by simpa using he)
  nodup := by rw [List.flatMap_append]; simpa [BodyItem.defined] using h.nodup
  types := fun n es he => h.types n es (by simpa using he)
  lits := h.lits

theorem chunkAt_some {c : Ctx} {i : Nat} {ch : Chunk} (h : chunkAt c i = some ch) : ∃ r, c.nodes[i]? = some r ∧ r.chunk = some ch := by
  unfold chunkAt at h
  rw [Option.bind_eq_some_iff] at h
  exact h

/-- Declaration of a node to be defined. -/
theorem declareTrue_spec (c : Ctx) (n : List Nat) : nodeNames (declareNode c n true).2 = enlist (nodeNames c) [n] ∧
    nodeIndex (declareNode c n true).2 n = some (declareNode c n true).1 ∧
    (∀ i, depsAt (declareNode c n true).2 i = depsAt c i) ∧
    (∀ i, i ≠ (declareNode c n true).1 → chunkAt (declareNode c n true).2 i = chunkAt c i) := by
  unfold declareNode
  cases h : nodeIndex c n with
  | some i =>
    dsimp only
    have hm : n ∈ nodeNames c := List.mem_of_getElem? (idx_name h)
    have hnames : nodeNames { c with nodes := c.nodes.modify i fun r =>
        if r.chunk.isNone = true ∧ true = true then { r with chunk := if true = true then some (Chunk.group [] false false) else none } else r } =
        nodeNames c := names_modify c.nodes i _ (fun r => by split <;> rfl)
    refine ⟨?_, ?_, ?_, ?_⟩
    · rw [enlist, if_pos hm]; exact hnames
    · rw [nodeIndex_names] at h ⊢
      unfold ctxNames at h ⊢
      rw [hnames]
      exact h
    · intro k
      unfold depsAt
      dsimp only
      rw [List.getElem?_modify]
      cases c.nodes[k]? with
      | none => rfl
      | some r => simp only [Option.map_eq_map, Option.map_some, Option.getD_some]; split <;> [split; rfl] <;> rfl
    · intro k hk
      unfold chunkAt
      dsimp only
      rw [List.getElem?_modify]
      have : ¬ i = k := fun e => hk e.symm
      simp [this]
  | none =>
    have hm : n ∉ nodeNames c := by
      rw [nodeIndex_names] at h
      unfold ctxNames namesOf at h
      dsimp only at h
      rw [List.findIdx?_eq_none_iff] at h
      intro hc
      have := h n hc
      simp at this
    dsimp only
    refine ⟨?_, ?_, ?_, ?_⟩
    · rw [enlist, if_neg hm]
      simp [nodeNames, enlist]
    · unfold nodeIndex at h ⊢
      dsimp only
      rw [List.findIdx?_append, h]
      simp
    · intro i
      unfold depsAt
      dsimp only
      rcases Nat.lt_trichotomy i c.nodes.length with hi | rfl | hi
      · rw [List.getElem?_append_left hi]
      · rw [List.getElem?_append_right (by omega)]
        simp
      · rw [List.getElem?_eq_none (by simp; omega), List.getElem?_eq_none (by omega)]
    · intro i hk
      unfold chunkAt
      dsimp only
      rcases Nat.lt_trichotomy i c.nodes.length with hi | rfl | hi
      · rw [List.getElem?_append_left hi]
      · exact absurd rfl hk
      · rw [List.getElem?_eq_none (by simp; omega), List.getElem?_eq_none (by omega)]

/-- What happens to the context while a node is being defined. -/
theorem BodyOk.node {c0 c c2 : Ctx} {items : List BodyItem} (h : BodyOk c0 items c) {n : List Nat} {es : List Expr} {chs : List Chunk}
    (hn : n ∉ items.flatMap BodyItem.defined) (hx : ExprOk n (declareNode c n true).2 es chs c2) :
    BodyOk c0 (items ++ [.node n es]) { c2 with nodes := c2.nodes.modify (declareNode c n true).1 fun r =>
      { r with chunk := some (.group chs false false) } } := by
  obtain ⟨⟨l, e1⟩, hk, -⟩ := addNode_names c n true
  obtain ⟨d1, d2, d3, d4⟩ := declareTrue_spec c n
  rw [e1] at hx d1 d2 d3 d4 hk
  generalize hj : (declareNode c n true).1 = j at *
  have hx2 := hx.index d2
  have hnames : nodeNames { c2 with nodes := c2.nodes.modify j fun r => { r with chunk := some (.group chs false false) } } = nodeNames c2 :=
    names_modify c2.nodes j (fun r => { r with chunk := some (.group chs false false) }) (fun _ => rfl)
  have hctx : ctxNames { c2 with nodes := c2.nodes.modify j fun r => { r with chunk := some (.group chs false false) } } = ctxNames c2 := by
    unfold ctxNames; rw [hnames]
  have hidx : ∀ m, nodeIndex { c2 with nodes := c2.nodes.modify j fun r => { r with chunk := some (.group chs false false) } } m = nodeIndex c2 m := by
    intro m; rw [nodeIndex_names, nodeIndex_names, hctx]
  have hlt : j < c2.nodes.length := by
    have := idx_name hx2
    unfold nodeNames at this
    rw [List.getElem?_eq_some_iff] at this
    simpa using this.1
  have hch : ∀ k, chunkAt { c2 with nodes := c2.nodes.modify j fun r => { r with chunk := some (.group chs false false) } } k =
      if j = k then some (.group chs false false) else chunkAt c2 k := by
    intro k
    unfold chunkAt
    dsimp only
    rw [List.getElem?_modify]
    by_cases hjk : j = k
    · subst hjk
      rw [List.getElem?_eq_getElem hlt]
      simp
    · simp [hjk]
  have hdp : ∀ k, depsAt { c2 with nodes := c2.nodes.modify j fun r => { r with chunk := some (.group chs false false) } } k = depsAt c2 k := by
    intro k
    unfold depsAt
    dsimp only
    rw [List.getElem?_modify]
    cases c2.nodes[k]? with
    | none => rfl
    | some r => simp only [Option.map_eq_map, Option.map_some, Option.getD_some]; split <;> rfl
  have hle : NLe (ctxNames c) (ctxNames c2) := by
    refine namesOf_le ?_ ?_
    · rw [hx.tokens]; exact enlistLits_prefix _ _
    · rw [hx.names, d1]; exact (enlist_prefix _ _).trans (enlist_prefix _ _)
  -- the old entry of the node
  have hold : depsAt c j = ∅ := by
    cases ho : nodeIndex c n with
    | some k =>
      have : nodeIndex { c with nodes := l } n = some k := by
        rw [nodeIndex_names] at ho ⊢
        refine findIdx?_prefix ?_ ho
        rw [d1]; exact enlist_prefix _ _
      rw [d2] at this
      cases this
      exact (h.undef j n (idx_name ho) hn).1
    | none =>
      have : j = c.nodes.length := by
        rw [← hj]; unfold declareNode; rw [ho]
      unfold depsAt
      rw [List.getElem?_eq_none (by omega)]
      rfl
  refine ⟨?_, ?_, ?_, ?_, ?_, ?_, ?_, ?_, ?_, ?_⟩
  · have s1 := hx.same
    have s2 := h.same
    rw [s2] at s1
    rw [s1]
  · rw [hnames, hx.names, d1, h.names, List.flatMap_append]
    simp only [List.flatMap_cons, List.flatMap_nil, BodyItem.names, List.append_nil]
    rw [enlist_append, enlist, enlist, enlist]
  · dsimp only
    rw [hx.tokens]
    dsimp only
    rw [h.tokens, List.flatMap_append, enlistLits_append]
    simp [BodyItem.lits]
  · have : c2.layers = c.layers := by rw [hx.same]
    dsimp only
    rw [this, h.layers, List.flatMap_append]
    simp [BodyItem.layers]
  · refine ⟨?_, ?_⟩
    · rw [hctx]; exact hx.inv.token
    · rw [hctx]; exact hx.inv.literal
  · intro k m hk' hm
    rw [hnames] at hk'
    rw [List.flatMap_append] at hm
    simp only [List.mem_append, List.flatMap_cons, List.flatMap_nil, BodyItem.defined, List.append_nil, List.mem_singleton, not_or] at hm
    have hjk : ¬ j = k := by
      rintro rfl
      rw [idx_name hx2] at hk'
      cases hk'
      exact hm.2 rfl
    rw [hdp, hch, if_neg hjk, hx.deps, hx.kept, d2, if_neg (by simpa using hjk), d3, d4 k (fun e => hjk e.symm)]
    -- an old node or a new one
    by_cases hkc : k < (nodeNames c).length
    · have : (nodeNames c)[k]? = some m := by
        obtain ⟨r, hr⟩ : nodeNames c <+: nodeNames c2 := by
          rw [hx.names, d1]; exact (enlist_prefix _ _).trans (enlist_prefix _ _)
        rw [← hr, List.getElem?_append_left hkc] at hk'
        exact hk'
      exact h.undef k m this hm.1
    · have : c.nodes[k]? = none := List.getElem?_eq_none (by unfold nodeNames at hkc; simpa using hkc)
      unfold depsAt chunkAt
      rw [this]
      exact ⟨rfl, rfl⟩
  · intro m es' he
    rcases List.mem_append.1 he with hm | he
    · obtain ⟨i, chs', g1, g2, g3, g4⟩ := h.defined m es' hm
      have hi2 : nodeIndex c2 m = some i := by
        rw [nodeIndex_names] at g1 ⊢; exact hle.node _ _ g1
      have hmn : m ≠ n := by
        rintro rfl
        exact hn (List.mem_flatMap.2 ⟨_, hm, by simp [BodyItem.defined]⟩)
      have hij : ¬ j = i := by
        rintro rfl
        have := idx_name hx2
        rw [idx_name hi2] at this
        cases this
        exact hmn rfl
      refine ⟨i, chs', by rw [hidx]; exact hi2, by rw [hctx]; exact chunks_mono hle _ _ g2, ?_, ?_⟩
      · rw [hch, if_neg hij, hx.kept, d4 i (fun e => hij e.symm)]; exact g3
      · rw [hdp, hx.deps, d2, if_neg (by simpa using hij), d3]; exact g4
    · simp only [List.mem_singleton, BodyItem.node.injEq] at he
      obtain ⟨rfl, rfl⟩ := he
      refine ⟨j, chs, by rw [hidx]; exact hx2, by rw [hctx]; exact hx.chunks, ?_, ?_⟩
      · rw [hch, if_pos rfl]
      · rw [hdp, hx.deps, d2, if_pos rfl, d3, hold, Finset.empty_union]
  · rw [List.flatMap_append, List.nodup_append]
    refine ⟨h.nodup, by simp [BodyItem.defined], ?_⟩
    intro a ha b hb
    simp only [List.flatMap_cons, List.flatMap_nil, BodyItem.defined, List.append_nil, List.mem_singleton] at hb
    subst hb
    rintro rfl
    exact hn ha
  · intro m es' he t ht
    rcases List.mem_append.1 he with he | he
    · exact h.types m es' he t ht
    · simp only [List.mem_singleton, BodyItem.node.injEq] at he
      obtain ⟨rfl, rfl⟩ := he
      have := hx.types t ht
      dsimp only at this
      rw [h.tokens] at this
      exact usable_enlist this
  · intro hr
    have hrc : c.restrictLiterals = true := by rw [h.same]; exact hr
    have := hx.lits hrc
    dsimp only at this ⊢
    rw [this, h.lits hr]

theorem parseNodeDef_read {fuel : Nat} {n : List Nat} {c0 c c' : Ctx} {f f' : Feed} {items : List BodyItem} (h : BodyOk c0 items c)
    (hn : n ∉ items.flatMap BodyItem.defined) (hl : Lexed (rest f)) (hp : parseNodeDef fuel n c f = .done (.ok (c', f'))) :
    ∃ ts es, rest f = ts.map .ok ++ rest f' ∧ DerivesItem (.node n es) (⟨.name, n⟩ :: ts) ∧ BodyOk c0 (items ++ [.node n es]) c' := by
  unfold parseNodeDef at hp
  dsimp only at hp
  rw [bindL_ok] at hp
  obtain ⟨⟨t, f1⟩, h1, hp⟩ := hp
  obtain ⟨g1, hl1⟩ := need_op h1 hl (by simp)
  dsimp only at hp
  rw [bindL_ok] at hp
  obtain ⟨⟨chs, c2, f2⟩, h2, hp⟩ := hp
  obtain ⟨⟨l, e1⟩, hk, -⟩ := addNode_names c n true
  have hb : BInv (declareNode c n true).2 := by rw [e1]; exact ⟨h.inv.token, h.inv.literal⟩
  obtain ⟨ts, es, g2, d2, x2⟩ := parseGroup_read fuel n _ f1 chs c2 f2 hk hb hl1 h2
  have hl2 : Lexed (rest f2) := lexed_suffix hl1 (by rw [g2]; exact List.suffix_append _ _)
  dsimp only at hp
  rw [bindL_ok] at hp
  obtain ⟨⟨u, f3⟩, h3, hp⟩ := hp
  obtain ⟨g3, hl3⟩ := need_op h3 hl2 (by simp)
  cases hp
  refine ⟨op 61 :: ts ++ [op 59], es, ?_, .node n d2, h.node hn x2⟩
  rw [g1, g2, g3]
  simp

theorem BodyOk.defined_iff {c0 c : Ctx} {items : List BodyItem} (h : BodyOk c0 items c) (n : List Nat) :
    (∃ r ∈ c.nodes, r.name = n ∧ r.chunk.isSome) ↔ n ∈ items.flatMap BodyItem.defined := by
  constructor
  · rintro ⟨r, hr, hname, hc⟩
    by_contra hd
    obtain ⟨i, hi, he⟩ := List.getElem_of_mem hr
    have : (nodeNames c)[i]? = some n := by
      unfold nodeNames
      rw [List.getElem?_map, List.getElem?_eq_getElem hi, he, ← hname]
      rfl
    have := (h.undef i n this hd).2
    unfold chunkAt at this
    rw [List.getElem?_eq_getElem hi, he] at this
    simp only [Option.bind_some] at this
    rw [this] at hc
    cases hc
  · intro hd
    obtain ⟨it, hi, hm⟩ := List.mem_flatMap.1 hd
    cases it with
    | layer l => simp [BodyItem.defined] at hm
    | node m es =>
      simp only [BodyItem.defined, List.mem_singleton] at hm
      subst hm
      obtain ⟨i, chs, h1, -, h3, -⟩ := h.defined n es hi
      obtain ⟨r, hr, hc⟩ := chunkAt_some h3
      refine ⟨r, List.mem_of_getElem? hr, ?_, by rw [hc]; rfl⟩
      have := idx_name h1
      unfold nodeNames at this
      rw [List.getElem?_map, hr] at this
      simpa using this

theorem derivesBody_append {is is' : List BodyItem} {ts ts' : List LTok} (h : DerivesBody is ts) (h' : DerivesBody is' ts') :
    DerivesBody (is ++ is') (ts ++ ts') := by
  induction h with
  | nil => exact h'
  | cons hi _ ih => rw [List.append_assoc]; exact .cons hi ih

/-- Names of special token types are not texts of tokens. -/
theorem not_text_eof {t : LTok} (hl : LexTok t) {s : List Nat} (hs : s.head? = some 45 ∧ 1 < s.length) : t.text ≠ s := by
  rintro rfl
  obtain ⟨h1, h2⟩ := hs
  unfold LexTok at hl
  split at hl
  · obtain ⟨q, s, hq, hs⟩ := hl
    rw [hs] at h1
    simp at h1
    omega
  · obtain ⟨b, s, hb, hs⟩ := hl
    rw [hs] at h1
    simp at h1
    unfold letter at hb
    omega
  · obtain ⟨s, hs⟩ := hl; rw [hs] at h1; simp at h1
  · obtain ⟨s, hs⟩ := hl; rw [hs] at h1; simp at h1
  · obtain ⟨s, hs⟩ := hl; rw [hs] at h1; simp at h1
  · obtain ⟨s, hs⟩ := hl; rw [hs] at h1; simp at h1
  · obtain ⟨b, hb, hs⟩ := hl; rw [hs] at h2; simp at h2
  · exact hl

theorem parseBody_read : ∀ (fuel : Nat) (t : LTok) (c0 c : Ctx) (f : Feed) (items : List BodyItem) (c' : Ctx), BodyOk c0 items c →
    LexTok t → (t.kind = .name ∨ t.kind = .op) → Lexed (rest f) → AllOk (rest f) → parseBody fuel t c f = .done (.ok c') →
    ∃ ts is, t :: ts = (t :: ts) ∧ rest f = ts.map .ok ∧ DerivesBody is (t :: ts) ∧ BodyOk c0 (items ++ is) c'
  | 0, _, _, _, _, _, _, _, _, _, _, _, h => by cases h
  | fuel + 1, t, c0, c, f, items, c', hb, ht, hk, hl, ho, h => by
    rw [parseBody, if_neg (lexTok_eof ht), bindL_ok] at h
    obtain ⟨⟨c1, f1⟩, h1, h⟩ := h
    have step : ∃ ts i, rest f = ts.map .ok ++ rest f1 ∧ DerivesItem i (t :: ts) ∧ BodyOk c0 (items ++ [i]) c1 := by
      by_cases hop : t.kind = .op
      · rw [if_pos hop] at h1
        obtain ⟨l, ts, -, e, d, rfl⟩ := parseLayerDef_read hl ho ht h1
        simp only [List.map_cons, List.cons_append, List.cons.injEq, true_and] at e
        exact ⟨ts, .layer l, e, .layer d, hb.layer l⟩
      · rw [if_neg hop] at h1
        by_cases hd : ∃ r ∈ c.nodes, r.name = t.text ∧ r.chunk.isSome
        · rw [if_pos hd] at h1; cases h1
        · rw [if_neg hd] at h1
          rw [hb.defined_iff] at hd
          obtain ⟨ts, es, e, d, hb'⟩ := parseNodeDef_read hb hd hl h1
          have hn : t = ⟨.name, t.text⟩ := by
            rcases hk with hk | hk
            · rw [← hk]
            · exact absurd hk hop
          exact ⟨ts, .node t.text es, e, by rw [← hn] at d; exact d, hb'⟩
    obtain ⟨ts, i, e, d, hb'⟩ := step
    have hs : rest f1 <:+ rest f := by rw [e]; exact List.suffix_append _ _
    have hl1 := lexed_suffix hl hs
    have ho1 := allOk_suffix ho hs
    dsimp only at h
    rw [bindL_ok] at h
    obtain ⟨⟨u, f2⟩, h2, h⟩ := h
    dsimp only at h
    cases hr : rest f1 with
    | nil =>
      unfold need at h2
      rw [fetch_nil hr, orPanic_ok] at h2
      obtain ⟨a, ha, h2⟩ := h2
      cases ha
      rw [if_pos (.inl (.inl (by simp)))] at h2
      simp only at h2
      cases h2
      cases fuel with
      | zero => cases h
      | succ fuel =>
        rw [parseBody, if_pos rfl] at h
        cases h
        rw [hr, List.append_nil] at e
        exact ⟨ts, [i], rfl, e, by simpa using DerivesBody.cons d .nil, hb'⟩
    | cons x r =>
      obtain ⟨v, rfl⟩ := ho1 x (by rw [hr]; simp)
      have hv : LexTok v := hl1 v (by rw [hr]; simp)
      by_cases hm : Match [Kind.name.text, Kind.op.text, Kind.eof.text, bytesOf "-eoi-"] v
      · obtain ⟨f3, q1, q2⟩ := fetch_match hr hm true
        unfold need at h2
        rw [q1] at h2
        simp only [orPanic] at h2
        cases h2
        have hku : u.kind = .name ∨ u.kind = .op := by
          simp only [Match, List.mem_cons, List.not_mem_nil, or_false] at hm
          rcases hm with (g | g | g | g) | (g | g | g | g)
          · exact .inl (kind_text_inj g)
          · exact .inr (kind_text_inj g)
          · exact absurd (kind_text_inj g) (lexTok_eof hv)
          · exact absurd g (by cases u.kind <;> decide +kernel)
          · exact .inl (text_kind hv (by decide) g)
          · exact .inl (text_kind hv (by decide) g)
          · exact absurd g (not_text_eof hv (by decide +kernel))
          · exact absurd g (not_text_eof hv (by decide +kernel))
        have hs2 : rest f2 <:+ rest f1 := by rw [hr, q2]; exact List.suffix_cons _ _
        obtain ⟨ts', is, -, e', d', hb''⟩ := parseBody_read fuel u c0 c1 f2 (items ++ [i]) c' hb' hv hku (lexed_suffix hl1 hs2) (allOk_suffix ho1 hs2) h
        refine ⟨ts ++ u :: ts', i :: is, rfl, ?_, ?_, by simpa using hb''⟩
        · rw [e, hr, ← q2, e']; simp
        · exact .cons d d'
      · obtain ⟨⟨f3, q1⟩, -⟩ := fetch_other hr (lexTok_eof hv) hm
        unfold need at h2
        rw [q1] at h2
        simp only [orPanic] at h2
        cases h2

end Verif.Proof.LangDef
