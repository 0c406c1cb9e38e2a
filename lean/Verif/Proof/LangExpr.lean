/-
Reading of expressions of node definitions.
-/
import Verif.Spec.LangSyntax
import Verif.Proof.LangDefRun

namespace Verif.Proof.LangDef

open Verif.Model Verif.Model.LangDef Verif.Spec.LangDef

theorem safe_get {α : Type} {x : LRes α} {q : α → Prop} (h : Safe x q) {a : α} (ha : x = .done (.ok a)) : q a := by
  obtain ⟨r, rfl, hr⟩ := h
  cases ha
  exact hr a rfl

theorem bindL_ok {α β : Type} {x : LRes α} {f : α → LRes β} {b : β} :
    bindL x f = .done (.ok b) ↔ ∃ a, x = .done (.ok a) ∧ f a = .done (.ok b) := by
  cases x with
  | panic => simp [bindL]
  | timeout => simp [bindL]
  | done r => cases r <;> simp [bindL]

theorem orPanic_ok {α β : Type} {x : Option α} {f : α → LRes β} {b : β} :
    orPanic x f = .done (.ok b) ↔ ∃ a, x = some a ∧ f a = .done (.ok b) := by
  cases x <;> simp [orPanic]

/-! Lists of names -/

theorem enlist_append (l a b : List (List Nat)) : enlist l (a ++ b) = enlist (enlist l a) b := by
  induction a generalizing l with
  | nil => rfl
  | cons m a ih => simp only [List.cons_append, enlist, ih]

theorem enlistLits_append (l : List GToken) (a b : List (List Nat)) : enlistLits l (a ++ b) = enlistLits (enlistLits l a) b := by
  induction a generalizing l with
  | nil => rfl
  | cons m a ih => simp only [List.cons_append, enlistLits, ih]

theorem enlist_prefix (l a : List (List Nat)) : l <+: enlist l a := by
  induction a generalizing l with
  | nil => exact List.prefix_refl l
  | cons m a ih =>
    rw [enlist]
    refine List.IsPrefix.trans ?_ (ih _)
    split
    · exact List.prefix_refl l
    · exact List.prefix_append _ _

theorem enlistLits_prefix (l : List GToken) (a : List (List Nat)) : l <+: enlistLits l a := by
  induction a generalizing l with
  | nil => exact List.prefix_refl l
  | cons m a ih =>
    rw [enlistLits]
    refine List.IsPrefix.trans ?_ (ih _)
    split
    · exact List.prefix_refl l
    · exact List.prefix_append _ _

theorem findIdx?_prefix {α : Type} {p : α → Bool} {l l' : List α} (h : l <+: l') {i : Nat} (hi : l.findIdx? p = some i) :
    l'.findIdx? p = some i := by
  obtain ⟨r, rfl⟩ := h
  rw [List.findIdx?_append, hi]
  rfl

/-- More names are known. -/
structure NLe (N N' : Names) : Prop where
  node : ∀ n i, N.node n = some i → N'.node n = some i
  token : ∀ n i, N.token n = some i → N'.token n = some i
  literal : ∀ n i, N.literal n = some i → N'.literal n = some i

theorem namesOf_le {ts ts' : List GToken} {ns ns' : List (List Nat)} (h1 : ts <+: ts') (h2 : ns <+: ns') :
    NLe (namesOf ts ns) (namesOf ts' ns') :=
  ⟨fun _ _ h => findIdx?_prefix h2 h, fun _ _ h => findIdx?_prefix h1 h, fun _ _ h => findIdx?_prefix h1 h⟩

mutual

theorem chunk_mono {N N' : Names} (h : NLe N N') : ∀ (e : Expr) (c : Chunk), e.chunk N = some c → e.chunk N' = some c
  | .node n, c, hc => by
    rw [Expr.chunk, Option.map_eq_some_iff] at *
    obtain ⟨i, hi, rfl⟩ := hc
    exact ⟨i, h.node n i hi, rfl⟩
  | .token n, c, hc => by
    rw [Expr.chunk, Option.map_eq_some_iff] at *
    obtain ⟨i, hi, rfl⟩ := hc
    exact ⟨i, h.token n i hi, rfl⟩
  | .eoi, c, hc => by rw [Expr.chunk] at *; exact hc
  | .literal n, c, hc => by
    rw [Expr.chunk, Option.map_eq_some_iff] at *
    obtain ⟨i, hi, rfl⟩ := hc
    exact ⟨i, h.literal n i hi, rfl⟩
  | .variant es, c, hc => by
    rw [Expr.chunk, Option.map_eq_some_iff] at *
    obtain ⟨cs, hi, rfl⟩ := hc
    exact ⟨cs, chunks_mono h es cs hi, rfl⟩
  | .group es opt rep, c, hc => by
    rw [Expr.chunk, Option.map_eq_some_iff] at *
    obtain ⟨cs, hi, rfl⟩ := hc
    exact ⟨cs, chunks_mono h es cs hi, rfl⟩

theorem chunks_mono {N N' : Names} (h : NLe N N') : ∀ (es : List Expr) (cs : List Chunk), Expr.chunks N es = some cs →
    Expr.chunks N' es = some cs
  | [], cs, hc => by rw [Expr.chunks] at *; exact hc
  | e :: es, cs, hc => by
    rw [Expr.chunks, Option.bind_eq_some_iff] at *
    obtain ⟨c, h1, h2⟩ := hc
    refine ⟨c, chunk_mono h e c h1, ?_⟩
    rw [Option.map_eq_some_iff] at *
    obtain ⟨cs', h3, rfl⟩ := h2
    exact ⟨cs', chunks_mono h es cs' h3, rfl⟩

end

theorem chunks_append (N : Names) (a b : List Expr) (ca cb : List Chunk) (ha : Expr.chunks N a = some ca)
    (hb : Expr.chunks N b = some cb) : Expr.chunks N (a ++ b) = some (ca ++ cb) := by
  induction a generalizing ca with
  | nil => rw [Expr.chunks] at ha; cases ha; exact hb
  | cons e a ih =>
    rw [List.cons_append, Expr.chunks, Option.bind_eq_some_iff] at *
    obtain ⟨c, h1, h2⟩ := ha
    rw [Option.map_eq_some_iff] at h2
    obtain ⟨cs', h3, rfl⟩ := h2
    exact ⟨c, h1, by rw [ih cs' h3]; rfl⟩

theorem nodesOf_append (a b : List Expr) : Expr.nodesOf (a ++ b) = Expr.nodesOf a ++ Expr.nodesOf b := by
  induction a with
  | nil => rfl
  | cons e a ih => simp only [List.cons_append, Expr.nodesOf, ih, List.append_assoc]

theorem litsOf_append (a b : List Expr) : Expr.litsOf (a ++ b) = Expr.litsOf a ++ Expr.litsOf b := by
  induction a with
  | nil => rfl
  | cons e a ih => simp only [List.cons_append, Expr.litsOf, ih, List.append_assoc]

theorem typesOf_append (a b : List Expr) : Expr.typesOf (a ++ b) = Expr.typesOf a ++ Expr.typesOf b := by
  induction a with
  | nil => rfl
  | cons e a ih => simp only [List.cons_append, Expr.typesOf, ih, List.append_assoc]

theorem chunk_nodesOf_append (a b : List Chunk) : Chunk.nodesOf (a ++ b) = Chunk.nodesOf a ∪ Chunk.nodesOf b := by
  induction a with
  | nil => simp [Chunk.nodesOf]
  | cons e a ih => simp only [List.cons_append, Chunk.nodesOf, ih, Finset.union_assoc]

/-! Contexts -/

/-- Names of nodes. -/
def nodeNames (c : Ctx) : List (List Nat) := c.nodes.map (·.name)

/-- What names denote in a context. -/
def ctxNames (c : Ctx) : Names := namesOf c.tokens (nodeNames c)

/-- Indexes agree with tables. -/
structure BInv (c : Ctx) : Prop where
  token : ∀ n, c.tokenIndex.lookup n = (ctxNames c).token n
  literal : ∀ n, c.literalIndex.lookup n = (ctxNames c).literal n

def depsAt (c : Ctx) (i : Nat) : Finset Nat := ((c.nodes[i]?).map (·.deps)).getD ∅

def chunkAt (c : Ctx) (i : Nat) : Option Chunk := (c.nodes[i]?).bind (·.chunk)

theorem nodeIndex_names (c : Ctx) (n : List Nat) : nodeIndex c n = (ctxNames c).node n := by
  unfold nodeIndex ctxNames namesOf nodeNames
  dsimp only
  rw [List.findIdx?_map]
  rfl

/-- A token type that may be used in definitions. -/
def Usable (ts : List GToken) (n : List Nat) : Prop :=
  ∃ i t, (ts.findIdx? fun t => t.name = n ∧ t.flags.literal = false) = some i ∧ ts[i]? = some t ∧ t.flags.side = false ∧ t.flags.error = false

/-- Effect of reading expressions `es` of the definition of `name`. -/
structure ExprOk (name : List Nat) (c : Ctx) (es : List Expr) (chs : List Chunk) (c' : Ctx) : Prop where
  same : c' = { c with nodes := c'.nodes, tokens := c'.tokens, literalIndex := c'.literalIndex }
  names : nodeNames c' = enlist (nodeNames c) (Expr.nodesOf es)
  tokens : c'.tokens = enlistLits c.tokens (Expr.litsOf es)
  inv : BInv c'
  chunks : Expr.chunks (ctxNames c') es = some chs
  deps : ∀ i, depsAt c' i = if nodeIndex c name = some i then depsAt c i ∪ Chunk.nodesOf chs else depsAt c i
  kept : ∀ i, chunkAt c' i = chunkAt c i
  types : ∀ n ∈ Expr.typesOf es, Usable c.tokens n
  lits : c.restrictLiterals = true → c'.tokens = c.tokens

theorem ExprOk.index {name : List Nat} {c c' : Ctx} {es : List Expr} {chs : List Chunk} (h : ExprOk name c es chs c') {n : List Nat} {i : Nat}
    (hi : nodeIndex c n = some i) : nodeIndex c' n = some i := by
  rw [nodeIndex_names] at *
  refine findIdx?_prefix ?_ hi
  rw [h.names]
  exact enlist_prefix _ _

theorem ExprOk.le {name : List Nat} {c c' : Ctx} {es : List Expr} {chs : List Chunk} (h : ExprOk name c es chs c') :
    NLe (ctxNames c) (ctxNames c') :=
  namesOf_le (by rw [h.tokens]; exact enlistLits_prefix _ _) (by rw [h.names]; exact enlist_prefix _ _)

/-- The table grows with literals only. -/
theorem enlistLits_types (ts : List GToken) (ls : List (List Nat)) (n : List Nat) {i : Nat}
    (h : ((enlistLits ts ls).findIdx? fun t => t.name = n ∧ t.flags.literal = false) = some i) :
    (ts.findIdx? fun t => t.name = n ∧ t.flags.literal = false) = some i := by
  induction ls generalizing ts with
  | nil => exact h
  | cons m ls ih =>
    rw [enlistLits] at h
    have := ih _ h
    split at this
    · exact this
    · rw [List.findIdx?_append] at this
      cases hx : ts.findIdx? fun t => t.name = n ∧ t.flags.literal = false with
      | some j => rw [hx] at this; simpa using this
      | none => rw [hx] at this; simp at this

theorem usable_enlist {ts : List GToken} {ls : List (List Nat)} {n : List Nat} (h : Usable (enlistLits ts ls) n) : Usable ts n := by
  obtain ⟨i, t, h1, h2, h3⟩ := h
  have h4 := enlistLits_types ts ls n h1
  refine ⟨i, t, h4, ?_, h3⟩
  rw [List.findIdx?_eq_some_iff_getElem] at h4
  obtain ⟨hi, -⟩ := h4
  obtain ⟨r, hr⟩ := enlistLits_prefix ts ls
  rw [← hr, List.getElem?_append_left hi] at h2
  exact h2

theorem ExprOk.append {name : List Nat} {c c1 c2 : Ctx} {es1 es2 : List Expr} {chs1 chs2 : List Chunk}
    (h1 : ExprOk name c es1 chs1 c1) (h2 : ExprOk name c1 es2 chs2 c2) (hk : Known name c) :
    ExprOk name c (es1 ++ es2) (chs1 ++ chs2) c2 where
  same := by
    have e1 := h1.same
    have e2 := h2.same
    rw [e1] at e2
    exact e2
  names := by rw [h2.names, h1.names, nodesOf_append, enlist_append]
  tokens := by rw [h2.tokens, h1.tokens, litsOf_append, enlistLits_append]
  inv := h2.inv
  chunks := chunks_append _ _ _ _ _ (chunks_mono h2.le _ _ h1.chunks) h2.chunks
  deps := by
    obtain ⟨j, hj⟩ := known_index hk
    intro i
    rw [h2.deps, h1.deps, h1.index hj, hj, chunk_nodesOf_append]
    split
    · rw [Finset.union_assoc]
    · rfl
  kept := fun i => by rw [h2.kept, h1.kept]
  types := by
    intro n hn
    rw [typesOf_append] at hn
    rcases List.mem_append.1 hn with hn | hn
    · exact h1.types n hn
    · have := h2.types n hn
      rw [h1.tokens] at this
      exact usable_enlist this
  lits := by
    intro hr
    have e1 := h1.lits hr
    have hr1 : c1.restrictLiterals = true := by rw [h1.same]; exact hr
    rw [h2.lits hr1, e1]

theorem ExprOk.known {name : List Nat} {c c' : Ctx} {es : List Expr} {chs : List Chunk} (h : ExprOk name c es chs c') (hk : Known name c) :
    Known name c' := by
  rw [known_names] at *
  have := h.names
  unfold nodeNames at this
  change name ∈ List.map (fun x => x.name) c'.nodes
  rw [this]
  exact (enlist_prefix _ _).subset hk

/-- Brackets and variants. -/
theorem ExprOk.wrap {name : List Nat} {c c' : Ctx} {es : List Expr} {chs : List Chunk} (h : ExprOk name c es chs c') {e : Expr} {ch : Chunk}
    (hn : e.nodes = Expr.nodesOf es) (hl : e.lits = Expr.litsOf es) (ht : e.types = Expr.typesOf es) (hc : ch.nodes = Chunk.nodesOf chs)
    (hx : ∀ N, Expr.chunks N es = some chs → e.chunk N = some ch) : ExprOk name c [e] [ch] c' where
  same := h.same
  names := by rw [h.names]; simp [Expr.nodesOf, hn]
  tokens := by rw [h.tokens]; simp [Expr.litsOf, hl]
  inv := h.inv
  chunks := by simp [Expr.chunks, hx _ h.chunks]
  deps := fun i => by rw [h.deps]; simp [Chunk.nodesOf, hc]
  kept := h.kept
  types := fun n hn => h.types n (by simpa [Expr.typesOf, ht] using hn)
  lits := h.lits

theorem ExprOk.variant {name : List Nat} {c c' : Ctx} {es : List Expr} {chs : List Chunk} (h : ExprOk name c es chs c') :
    ExprOk name c [.variant es] [.variant chs] c' :=
  h.wrap (by simp [Expr.nodes]) (by simp [Expr.lits]) (by simp [Expr.types]) (by simp [Chunk.nodes])
    (fun N hN => by simp [Expr.chunk, hN])

theorem ExprOk.group {name : List Nat} {c c' : Ctx} {es : List Expr} {chs : List Chunk} (h : ExprOk name c es chs c') (opt rep : Bool) :
    ExprOk name c [.group es opt rep] [.group chs opt rep] c' :=
  h.wrap (by simp [Expr.nodes]) (by simp [Expr.lits]) (by simp [Expr.types]) (by simp [Chunk.nodes])
    (fun N hN => by simp [Expr.chunk, hN])

/-! Basic variants -/

theorem declareNode_spec (c : Ctx) (n : List Nat) : nodeNames (declareNode c n false).2 = enlist (nodeNames c) [n] ∧
    nodeIndex (declareNode c n false).2 n = some (declareNode c n false).1 ∧
    (∀ i, depsAt (declareNode c n false).2 i = depsAt c i) ∧ (∀ i, chunkAt (declareNode c n false).2 i = chunkAt c i) := by
  unfold declareNode
  cases h : nodeIndex c n with
  | some i =>
    have hid : (fun r : NodeEntry => if r.chunk.isNone ∧ false = true then { r with chunk := none } else r) = id := by
      funext r; simp
    dsimp only
    simp only [Bool.false_eq_true, if_false]
    rw [show (c.nodes.modify i fun r => if r.chunk.isNone ∧ False then { r with chunk := none } else r) = c.nodes from ?_]
    · have hm : n ∈ nodeNames c := by
        rw [nodeIndex_names] at h
        have := h
        unfold ctxNames namesOf at this
        dsimp only at this
        rw [List.findIdx?_eq_some_iff_getElem] at this
        obtain ⟨hi, hp, -⟩ := this
        simp only [decide_eq_true_eq] at hp
        rw [← hp]
        exact List.getElem_mem hi
      refine ⟨?_, h, fun _ => rfl, fun _ => rfl⟩
      rw [enlist, if_pos hm]
      rfl
    · apply List.ext_getElem
      · simp
      · intro k h1 h2
        simp [List.getElem_modify]
  | none =>
    have hm : n ∉ nodeNames c := by
      rw [nodeIndex_names] at h
      unfold ctxNames namesOf at h
      dsimp only at h
      rw [List.findIdx?_eq_none_iff] at h
      intro hc
      have := h n hc
      simp at this
    dsimp only
    refine ⟨?_, ?_, ?_, ?_⟩
    · rw [enlist, if_neg hm]
      simp [nodeNames, enlist]
    · unfold nodeIndex at h ⊢
      dsimp only
      rw [List.findIdx?_append, h]
      simp
    · intro i
      unfold depsAt
      dsimp only
      rcases Nat.lt_trichotomy i c.nodes.length with hi | rfl | hi
      · rw [List.getElem?_append_left hi]
      · rw [List.getElem?_append_right (by omega)]
        simp
      · rw [List.getElem?_eq_none (by simp; omega), List.getElem?_eq_none (by omega)]
    · intro i
      unfold chunkAt
      dsimp only
      rcases Nat.lt_trichotomy i c.nodes.length with hi | rfl | hi
      · rw [List.getElem?_append_left hi]
      · rw [List.getElem?_append_right (by omega)]
        simp
      · rw [List.getElem?_eq_none (by simp; omega), List.getElem?_eq_none (by omega)]

theorem BInv.nodes {c : Ctx} (h : BInv c) (l : List NodeEntry) : BInv { c with nodes := l } := ⟨h.token, h.literal⟩

theorem exprOk_node {name : List Nat} {c : Ctx} (hb : BInv c) (hk : Known name c) (n : List Nat) {j : Nat}
    (hj : nodeIndex (declareNode c n false).2 name = some j) :
    ExprOk name c [.node n] [.node (declareNode c n false).1]
      { (declareNode c n false).2 with nodes := (declareNode c n false).2.nodes.modify j fun r =>
          { r with deps := insert (declareNode c n false).1 r.deps } } := by
  obtain ⟨⟨l, h0⟩, -, -⟩ := addNode_names c n false
  obtain ⟨h1, h2, h3, h4⟩ := declareNode_spec c n
  rw [h0] at hj h1 h2 h3 h4 ⊢
  generalize (declareNode c n false).1 = i at *
  dsimp only at *
  have hn : List.map (fun x : NodeEntry => x.name) (l.modify j fun r => { r with deps := insert i r.deps }) = l.map (fun x => x.name) :=
    names_modify l j (fun r => { r with deps := insert i r.deps }) (fun _ => rfl)
  have hj' : nodeIndex c name = some j := by
    obtain ⟨k, hk'⟩ := known_index hk
    have : nodeIndex { c with nodes := l } name = some k := by
      rw [nodeIndex_names] at *
      refine findIdx?_prefix ?_ hk'
      rw [h1]
      exact enlist_prefix _ _
    rw [hj] at this
    rw [hk', this]
  refine ⟨rfl, ?_, rfl, ⟨hb.token, hb.literal⟩, ?_, ?_, ?_, by simp [Expr.typesOf, Expr.types], fun _ => rfl⟩
  · simp only [Expr.nodesOf, Expr.nodes, List.append_nil]
    rw [← h1]
    exact hn
  · have : nodeIndex { c with nodes := l.modify j fun r => { r with deps := insert i r.deps } } n = some i := by
      rw [nodeIndex_names] at h2 ⊢
      unfold ctxNames at *
      have e : nodeNames { c with nodes := l.modify j fun r => { r with deps := insert i r.deps } } = nodeNames { c with nodes := l } := hn
      rw [e]
      exact h2
    rw [nodeIndex_names] at this
    simp [Expr.chunks, Expr.chunk, this]
  · intro k
    rw [hj']
    have h3 := h3 k
    unfold depsAt at h3 ⊢
    dsimp only at h3 ⊢
    rw [List.getElem?_modify]
    by_cases hjk : j = k
    · subst hjk
      rw [if_pos rfl, ← h3]
      have hlt : j < l.length := by
        unfold nodeIndex at hj
        rw [List.findIdx?_eq_some_iff_getElem] at hj
        exact hj.1
      rw [List.getElem?_eq_getElem hlt]
      ext x
      simp [Chunk.nodesOf, Chunk.nodes, or_comm]
    · rw [if_neg (by simpa using hjk), ← h3]
      simp [hjk]
  · intro k
    have h4 := h4 k
    unfold chunkAt at h4 ⊢
    dsimp only at h4 ⊢
    rw [List.getElem?_modify, ← h4]
    split
    · cases l[k]? <;> rfl
    · cases l[k]? <;> rfl

theorem exprOk_same {name : List Nat} {c : Ctx} (hb : BInv c) {e : Expr} {ch : Chunk} (hn : e.nodes = []) (hl : enlistLits c.tokens e.lits = c.tokens)
    (hc : ch.nodes = ∅) (hx : e.chunk (ctxNames c) = some ch) (ht : ∀ n ∈ e.types, Usable c.tokens n) : ExprOk name c [e] [ch] c where
  same := rfl
  names := by simp [Expr.nodesOf, hn, enlist]
  tokens := by simp [Expr.litsOf, hl]
  inv := hb
  chunks := by simp [Expr.chunks, hx]
  deps := fun i => by simp [Chunk.nodesOf, hc]
  kept := fun _ => rfl
  types := fun n h => ht n (by simpa [Expr.typesOf] using h)
  lits := fun _ => rfl

theorem literal_mem {c : Ctx} (hb : BInv c) (n : List Nat) :
    (∃ t ∈ c.tokens, t.flags.literal = true ∧ t.name = n) ↔ ∃ i, c.literalIndex.lookup n = some i := by
  have : (ctxNames c).literal n = c.tokens.findIdx? fun t => t.name = n ∧ t.flags.literal = true := rfl
  rw [hb.literal, this]
  cases hx : c.tokens.findIdx? fun t => t.name = n ∧ t.flags.literal = true with
  | none =>
    rw [List.findIdx?_eq_none_iff] at hx
    simp only [reduceCtorEq, exists_false, iff_false]
    rintro ⟨t, ht, h1, h2⟩
    have := hx t ht
    simp [h1, h2] at this
  | some i =>
    rw [List.findIdx?_eq_some_iff_getElem] at hx
    obtain ⟨hi, hp, -⟩ := hx
    simp only [decide_eq_true_eq] at hp
    exact ⟨fun _ => ⟨i, rfl⟩, fun _ => ⟨_, List.getElem_mem hi, hp.2, hp.1⟩⟩

theorem useLiteral_binv {c : Ctx} (hb : BInv c) (n : List Nat) (fl : TokenFlags) : BInv (useLiteralToken c n fl).2 := by
  unfold useLiteralToken
  cases hx : c.literalIndex.lookup n with
  | some i => exact hb
  | none =>
    have hno : ∀ t ∈ c.tokens, ¬ (t.flags.literal = true ∧ t.name = n) := by
      intro t ht hc
      obtain ⟨i, hi⟩ := (literal_mem hb n).1 ⟨t, ht, hc⟩
      rw [hx] at hi
      cases hi
    refine ⟨?_, ?_⟩
    · intro m
      dsimp only
      rw [hb.token]
      unfold ctxNames namesOf
      dsimp only
      rw [List.findIdx?_append]
      cases c.tokens.findIdx? fun t => t.name = m ∧ t.flags.literal = false with
      | some i => rfl
      | none => simp [orFlags]
    · intro m
      dsimp only
      rw [List.lookup_cons]
      unfold ctxNames namesOf
      dsimp only
      rw [List.findIdx?_append]
      by_cases hm : m = n
      · subst hm
        have : (c.tokens.findIdx? fun t => t.name = m ∧ t.flags.literal = true) = none := by
          have := hb.literal m
          rw [hx] at this
          exact this.symm
        rw [this]
        simp [orFlags]
      · have hmn : (m == n) = false := by simpa using hm
        rw [hmn]
        dsimp only
        rw [hb.literal]
        unfold ctxNames namesOf
        dsimp only
        cases c.tokens.findIdx? fun t => t.name = m ∧ t.flags.literal = true with
        | some i => rfl
        | none =>
          have : ¬ n = m := fun h => hm h.symm
          simp [this]

theorem exprOk_literal {name : List Nat} {c : Ctx} (hb : BInv c) (hr : c.restrictLiterals = false) {n : List Nat}
    (hx : c.literalIndex.lookup n = none) :
    ExprOk name c [.literal n] [.token (useLiteralToken c n {}).1] (useLiteralToken c n {}).2 := by
  have hb' := useLiteral_binv hb n {}
  have hlook : (useLiteralToken c n {}).2.literalIndex.lookup n = some (useLiteralToken c n {}).1 := by
    unfold useLiteralToken
    rw [hx]
    dsimp only
    rw [List.lookup_cons]
    simp
  have hno : ¬ ∃ t ∈ c.tokens, t.flags.literal = true ∧ t.name = n := by
    rw [literal_mem hb, hx]; simp
  have htok : (useLiteralToken c n {}).2.tokens = enlistLits c.tokens [n] := by
    unfold useLiteralToken
    rw [hx]
    dsimp only
    rw [enlistLits, if_neg hno]
    rfl
  have hsame : (useLiteralToken c n {}).2 = { c with tokens := (useLiteralToken c n {}).2.tokens, literalIndex := (useLiteralToken c n {}).2.literalIndex } := by
    unfold useLiteralToken
    rw [hx]
  have hnodes : (useLiteralToken c n {}).2.nodes = c.nodes := by rw [hsame]
  refine ⟨?_, ?_, ?_, hb', ?_, ?_, ?_, by simp [Expr.typesOf, Expr.types], ?_⟩
  · rw [hnodes]; exact hsame
  · simp [nodeNames, hnodes, Expr.nodesOf, Expr.nodes, enlist]
  · rw [htok]; simp [Expr.litsOf, Expr.lits]
  · rw [hb'.literal] at hlook
    simp [Expr.chunks, Expr.chunk, hlook]
  · intro i
    simp [depsAt, hnodes, Chunk.nodesOf, Chunk.nodes]
  · intro i
    simp [chunkAt, hnodes]
  · intro h; rw [hr] at h; cases h

/-! The reader -/

theorem tail1_cons (b : Nat) (s : List Nat) : tail1 (b :: s) = some s := tail1_some (by simp)

theorem derives_ne_nil {r : Role} {ts : List LTok} {es : List Expr} (h : Derives r ts es) : ts ≠ [] ∧ es ≠ [] := by
  induction h <;> simp_all

/-- What has been read. -/
def Read (role : Role) (name : List Nat) (c : Ctx) (f : Feed) (chs : List Chunk) (c' : Ctx) (f' : Feed) : Prop :=
  ∃ ts es, rest f = ts.map .ok ++ rest f' ∧ Derives role ts es ∧ ExprOk name c es chs c'

theorem match_ops {t : LTok} (hl : LexTok t) {b : Nat} (hm : Match [[b]] t) (hb : b ∈ [40, 41, 123, 125, 91, 93, 61, 124, 44, 59, 64]) :
    t = op b := by
  refine (match_op hl ?_ ?_).1 hm
  · intro h; unfold letter at h; simp at hb; omega
  · simp at hb; omega

mutual

theorem parseGroup_read : ∀ (fuel : Nat) (name : List Nat) (c : Ctx) (f : Feed) (chs : List Chunk) (c' : Ctx) (f' : Feed),
    Known name c → BInv c → Lexed (rest f) → parseGroup fuel name c f = .done (.ok (chs, c', f')) → Read .seq name c f chs c' f'
  | 0, _, _, _, _, _, _, _, _, _, h => by cases h
  | fuel + 1, name, c, f, chs, c', f', hk, hb, hl, h => by
    rw [parseGroup, bindL_ok] at h
    obtain ⟨⟨item, c1, f1⟩, h1, h⟩ := h
    obtain ⟨ts, es, e1, d1, x1⟩ := parseVariants_read fuel name c f item c1 f1 hk hb hl h1
    have hl1 : Lexed (rest f1) := lexed_suffix hl (by rw [e1]; exact List.suffix_append _ _)
    dsimp only at h
    rw [bindL_ok] at h
    obtain ⟨⟨t, f2⟩, h2, h⟩ := h
    have ht := safe_get (tryFetch_safe hl1) h2
    dsimp only at ht h
    have hes : ∃ e, es = [e] := by
      cases d1 <;> exact ⟨_, rfl⟩
    obtain ⟨e, rfl⟩ := hes
    rcases ht with ⟨rfl, g1, g2⟩ | ⟨u, rfl, g1, g2⟩ | ⟨rfl, g1, g2⟩
    · cases h
      exact ⟨ts, [e], by rw [e1, g1], .last d1, x1⟩
    · dsimp only at h
      rw [bindL_ok] at h
      obtain ⟨⟨items, c2, f3⟩, h3, h⟩ := h
      cases h
      have hl2 : Lexed (rest f2) := by rw [g1] at hl1; exact lexed_tail hl1
      obtain ⟨ts', es', e3, d3, x3⟩ := parseGroup_read fuel name c1 f2 items c2 f3 (x1.known hk) x1.inv hl2 h3
      have hu : u = op 44 := match_ops (hl1 u (by rw [g1]; simp)) g2 (by simp)
      refine ⟨ts ++ op 44 :: ts', e :: es', ?_, .cons d1 d3, x1.append x3 hk⟩
      rw [e1, g1, e3, hu]
      simp
    · dsimp only at h
      rw [bindL_ok] at h
      obtain ⟨⟨items, c2, f3⟩, h3, h⟩ := h
      have hl2 : Lexed (rest f2) := by rw [g2]; intro t ht; cases ht
      obtain ⟨ts', es', e3, d3, x3⟩ := parseGroup_read fuel name c1 f2 items c2 f3 (x1.known hk) x1.inv hl2 h3
      rw [g2] at e3
      have := (derives_ne_nil d3).1
      simp at e3
      exact absurd e3.1 this

theorem parseVariants_read : ∀ (fuel : Nat) (name : List Nat) (c : Ctx) (f : Feed) (ch : Chunk) (c' : Ctx) (f' : Feed),
    Known name c → BInv c → Lexed (rest f) → parseVariants fuel name c f = .done (.ok (ch, c', f')) → Read .item name c f [ch] c' f'
  | 0, _, _, _, _, _, _, _, _, _, h => by cases h
  | fuel + 1, name, c, f, ch, c', f', hk, hb, hl, h => by
    rw [parseVariants, bindL_ok] at h
    obtain ⟨⟨ch1, c1, f1⟩, h1, h⟩ := h
    obtain ⟨ts, es, e1, d1, x1⟩ := parseVariant_read fuel name c f ch1 c1 f1 hk hb hl h1
    have hl1 : Lexed (rest f1) := lexed_suffix hl (by rw [e1]; exact List.suffix_append _ _)
    dsimp only at h
    rw [bindL_ok] at h
    obtain ⟨⟨t, f2⟩, h2, h⟩ := h
    have ht := safe_get (tryFetch_safe hl1) h2
    dsimp only at ht h
    have hes : ∃ e, es = [e] := by
      cases d1 <;> exact ⟨_, rfl⟩
    obtain ⟨e, rfl⟩ := hes
    rcases ht with ⟨rfl, g1, g2⟩ | ⟨u, rfl, g1, g2⟩ | ⟨rfl, g1, g2⟩
    · cases h
      exact ⟨ts, [e], by rw [e1, g1], .single (.one d1), x1⟩
    · dsimp only at h
      rw [bindL_ok] at h
      obtain ⟨⟨items, c2, f3⟩, h3, h⟩ := h
      cases h
      have hl2 : Lexed (rest f2) := by rw [g1] at hl1; exact lexed_tail hl1
      obtain ⟨ts', es', e3, d3, x3⟩ := moreVariants_read fuel name c1 f2 items c2 f3 (x1.known hk) x1.inv hl2 h3
      have hu : u = op 124 := match_ops (hl1 u (by rw [g1]; simp)) g2 (by simp)
      refine ⟨ts ++ op 124 :: ts', [.variant (e :: es')], ?_, .variants (.more d1 d3) ?_, (x1.append x3 hk).variant⟩
      · rw [e1, g1, e3, hu]
        simp
      · have := List.length_pos_iff.2 (derives_ne_nil d3).2
        simp only [List.length_cons]
        omega
    · dsimp only at h
      rw [bindL_ok] at h
      obtain ⟨⟨items, c2, f3⟩, h3, h⟩ := h
      have hl2 : Lexed (rest f2) := by rw [g2]; intro t ht; cases ht
      obtain ⟨ts', es', e3, d3, x3⟩ := moreVariants_read fuel name c1 f2 items c2 f3 (x1.known hk) x1.inv hl2 h3
      rw [g2] at e3
      have := (derives_ne_nil d3).1
      simp at e3
      exact absurd e3.1 this

theorem moreVariants_read : ∀ (fuel : Nat) (name : List Nat) (c : Ctx) (f : Feed) (chs : List Chunk) (c' : Ctx) (f' : Feed),
    Known name c → BInv c → Lexed (rest f) → moreVariants fuel name c f = .done (.ok (chs, c', f')) → Read .alts name c f chs c' f'
  | 0, _, _, _, _, _, _, _, _, _, h => by cases h
  | fuel + 1, name, c, f, chs, c', f', hk, hb, hl, h => by
    rw [moreVariants, bindL_ok] at h
    obtain ⟨⟨ch1, c1, f1⟩, h1, h⟩ := h
    obtain ⟨ts, es, e1, d1, x1⟩ := parseVariant_read fuel name c f ch1 c1 f1 hk hb hl h1
    have hl1 : Lexed (rest f1) := lexed_suffix hl (by rw [e1]; exact List.suffix_append _ _)
    dsimp only at h
    rw [bindL_ok] at h
    obtain ⟨⟨t, f2⟩, h2, h⟩ := h
    have ht := safe_get (tryFetch_safe hl1) h2
    dsimp only at ht h
    have hes : ∃ e, es = [e] := by
      cases d1 <;> exact ⟨_, rfl⟩
    obtain ⟨e, rfl⟩ := hes
    rcases ht with ⟨rfl, g1, g2⟩ | ⟨u, rfl, g1, g2⟩ | ⟨rfl, g1, g2⟩
    · cases h
      exact ⟨ts, [e], by rw [e1, g1], .one d1, x1⟩
    · dsimp only at h
      rw [bindL_ok] at h
      obtain ⟨⟨items, c2, f3⟩, h3, h⟩ := h
      cases h
      have hl2 : Lexed (rest f2) := by rw [g1] at hl1; exact lexed_tail hl1
      obtain ⟨ts', es', e3, d3, x3⟩ := moreVariants_read fuel name c1 f2 items c2 f3 (x1.known hk) x1.inv hl2 h3
      have hu : u = op 124 := match_ops (hl1 u (by rw [g1]; simp)) g2 (by simp)
      refine ⟨ts ++ op 124 :: ts', e :: es', ?_, .more d1 d3, x1.append x3 hk⟩
      rw [e1, g1, e3, hu]
      simp
    · dsimp only at h
      rw [bindL_ok] at h
      obtain ⟨⟨items, c2, f3⟩, h3, h⟩ := h
      have hl2 : Lexed (rest f2) := by rw [g2]; intro t ht; cases ht
      obtain ⟨ts', es', e3, d3, x3⟩ := moreVariants_read fuel name c1 f2 items c2 f3 (x1.known hk) x1.inv hl2 h3
      rw [g2] at e3
      have := (derives_ne_nil d3).1
      simp at e3
      exact absurd e3.1 this

theorem parseVariant_read : ∀ (fuel : Nat) (name : List Nat) (c : Ctx) (f : Feed) (ch : Chunk) (c' : Ctx) (f' : Feed),
    Known name c → BInv c → Lexed (rest f) → parseVariant fuel name c f = .done (.ok (ch, c', f')) → Read .var name c f [ch] c' f'
  | 0, _, _, _, _, _, _, _, _, _, h => by cases h
  | fuel + 1, name, c, f, ch, c', f', hk, hb, hl, h => by
    rw [parseVariant, bindL_ok] at h
    obtain ⟨⟨t, f1⟩, h1, h⟩ := h
    obtain ⟨g1, g2⟩ := safe_get (need_safe hl (kinds_no_eof [.name, .tokenName, .string] [40, 91, 123] (by decide))) h1
    have ht : LexTok t := hl t (by rw [g1]; simp)
    have hl1 : Lexed (rest f1) := by rw [g1] at hl; exact lexed_tail hl
    have ht' := ht
    unfold LexTok at ht'
    dsimp only at h
    -- groups
    have group : t.kind ≠ .name → t.kind ≠ .tokenName → t.kind ≠ .string →
        bindL (parseGroup fuel name c f1) (fun (items, c, f) =>
          bindL (need [if decide (t.text = opLCurly) then opRCurly else if decide (t.text ≠ opLBrace) then opRSquare else opRBrace] f) fun (_, f) =>
            .done (.ok (Chunk.group items (decide (t.text ≠ opLBrace)) (decide (t.text = opLCurly)), c, f))) = .done (.ok (ch, c', f')) →
        Read .var name c f [ch] c' f' := by
      intro n1 n2 n3 h
      have htext : t.text = [40] ∨ t.text = [91] ∨ t.text = [123] := by
        simp only [Match, List.mem_append, List.map_cons, List.map_nil, List.mem_cons, List.not_mem_nil, or_false] at g2
        rcases g2 with ((g | g | g) | (g | g | g)) | ((g | g | g) | (g | g | g))
        · exact absurd (kind_text_inj g) n1
        · exact absurd (kind_text_inj g) n2
        · exact absurd (kind_text_inj g) n3
        · exact absurd g kind_text_op
        · exact absurd g kind_text_op
        · exact absurd g kind_text_op
        · exact absurd (text_kind ht (by decide) g) n1
        · exact absurd (text_kind ht (by decide) g) n1
        · exact absurd (text_kind ht (by decide) g) n1
        · exact .inl g
        · exact .inr (.inl g)
        · exact .inr (.inr g)
      rw [bindL_ok] at h
      obtain ⟨⟨items, c2, f2⟩, h2, h⟩ := h
      obtain ⟨ts, es, e2, d2, x2⟩ := parseGroup_read fuel name c f1 items c2 f2 hk hb hl1 h2
      have hl2 : Lexed (rest f2) := lexed_suffix hl1 (by rw [e2]; exact List.suffix_append _ _)
      dsimp only at h
      rw [bindL_ok] at h
      obtain ⟨⟨u, f3⟩, h3, h⟩ := h
      cases h
      rcases htext with g | g | g
      · have he : t = op 40 := text_op ht (by unfold letter; omega) (by omega) g
        rw [show (decide (t.text = opLCurly)) = false from by rw [g]; rfl, show (decide (t.text ≠ opLBrace)) = false from by rw [g]; rfl] at *
        obtain ⟨k1, k2⟩ := safe_get (need_safe hl2 (kinds_no_eof [] [41] (by simp))) h3
        have hu : u = op 41 := match_ops (hl2 u (by rw [k1]; simp)) k2 (by simp)
        refine ⟨_, _, ?_, .round d2, x2.group _ _⟩
        rw [g1, e2, k1, he, hu]; simp
      · have he : t = op 91 := text_op ht (by unfold letter; omega) (by omega) g
        rw [show (decide (t.text = opLCurly)) = false from by rw [g]; rfl, show (decide (t.text ≠ opLBrace)) = true from by rw [g]; rfl] at *
        obtain ⟨k1, k2⟩ := safe_get (need_safe hl2 (kinds_no_eof [] [93] (by simp))) h3
        have hu : u = op 93 := match_ops (hl2 u (by rw [k1]; simp)) k2 (by simp)
        refine ⟨_, _, ?_, .square d2, x2.group _ _⟩
        rw [g1, e2, k1, he, hu]; simp
      · have he : t = op 123 := text_op ht (by unfold letter; omega) (by omega) g
        rw [show (decide (t.text = opLCurly)) = true from by rw [g]; rfl, show (decide (t.text ≠ opLBrace)) = true from by rw [g]; rfl] at *
        obtain ⟨k1, k2⟩ := safe_get (need_safe hl2 (kinds_no_eof [] [125] (by simp))) h3
        have hu : u = op 125 := match_ops (hl2 u (by rw [k1]; simp)) k2 (by simp)
        refine ⟨_, _, ?_, .curly d2, x2.group _ _⟩
        rw [g1, e2, k1, he, hu]; simp
    cases hkd : t.kind with
    | name =>
      rw [hkd] at h
      dsimp only at h
      rw [orPanic_ok] at h
      obtain ⟨j, hj, h⟩ := h
      cases h
      refine ⟨[t], [.node t.text], by rw [g1]; rfl, ?_, exprOk_node hb hk t.text hj⟩
      have : t = ⟨.name, t.text⟩ := by rw [← hkd]
      rw [this]
      exact .node _
    | tokenName =>
      rw [hkd] at h ht'
      dsimp only at h ht'
      obtain ⟨s, hs⟩ := ht'
      have htok : t = typeTok s := by unfold typeTok; rw [← hkd, ← hs]
      rw [hs, tail1_cons] at h
      simp only [orPanic] at h
      by_cases hs0 : s = []
      · rw [if_pos hs0] at h
        cases h
        refine ⟨[t], [.eoi], by rw [g1]; rfl, ?_, exprOk_same hb rfl rfl rfl rfl (by simp [Expr.types])⟩
        rw [htok, hs0]
        exact .eoi
      · rw [if_neg hs0] at h
        cases hx : c.tokenIndex.lookup s with
        | none => rw [hx] at h; cases h
        | some i =>
          rw [hx] at h
          dsimp only at h
          rw [hb.token] at hx
          cases hi : c.tokens[i]? with
          | none => rw [hi] at h; cases h
          | some x =>
            rw [hi] at h
            simp only at h
            split at h
            · cases h
            · next hf =>
              cases h
              simp only [not_or, Bool.not_eq_true] at hf
              refine ⟨[t], [.token s], by rw [g1]; rfl, ?_, exprOk_same hb rfl rfl rfl (by simp [Expr.chunk, hx]) ?_⟩
              · rw [htok]; exact .token s hs0
              · intro n hn
                simp only [Expr.types, List.mem_singleton] at hn
                subst hn
                exact ⟨i, x, hx, hi, hf⟩
    | string =>
      rw [hkd] at h ht'
      dsimp only at h ht'
      obtain ⟨q, s, hq, hs⟩ := ht'
      have hstr : IsString s t := ⟨q, by rw [← hkd, ← hs]⟩
      rw [hs, inner_some] at h
      simp only [orPanic] at h
      cases hx : c.literalIndex.lookup s with
      | some i =>
        rw [hx] at h
        cases h
        have hx' := hx
        rw [hb.literal] at hx'
        refine ⟨[t], [.literal s], by rw [g1]; rfl, .literal s t hstr, exprOk_same hb rfl ?_ rfl (by simp [Expr.chunk, hx']) (by simp [Expr.types])⟩
        rw [Expr.lits, enlistLits, if_pos ((literal_mem hb s).2 ⟨i, hx⟩)]
        rfl
      | none =>
        rw [hx] at h
        simp only at h
        split at h
        · cases h
        · next hr =>
          cases h
          exact ⟨[t], [.literal s], by rw [g1]; rfl, .literal s t hstr, exprOk_literal hb (by simpa using hr) hx⟩
    | dir => rw [hkd] at h; exact group (by rw [hkd]; decide) (by rw [hkd]; decide) (by rw [hkd]; decide) h
    | templateName => rw [hkd] at h; exact group (by rw [hkd]; decide) (by rw [hkd]; decide) (by rw [hkd]; decide) h
    | regexp => rw [hkd] at h; exact group (by rw [hkd]; decide) (by rw [hkd]; decide) (by rw [hkd]; decide) h
    | op => rw [hkd] at h; exact group (by rw [hkd]; decide) (by rw [hkd]; decide) (by rw [hkd]; decide) h
    | eof => exact absurd hkd (lexTok_eof ht)

end

end Verif.Proof.LangDef
