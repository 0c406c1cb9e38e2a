/-
Grammars made from descriptions.
-/
import Verif.Model.LangParse
import Verif.Proof.ChunkNodes
import Verif.Proof.CompileTotal
import Verif.Proof.LangComplete
import Verif.Spec.LangWords
import Verif.Spec.Keys

namespace Verif.Proof.LangDef

open Verif Verif.Model Verif.Model.LangDef Verif.Spec Verif.Spec.LangDef Verif.Spec.Ebnf

/-! Words -/

/-- Index of a symbol, anything if there is none. -/
def toSym (N : Names) (x : Named) : Sym := (x.sym N).getD .eoi

mutual

theorem chunk_lang (N : Names) : (e : Expr) → {c : Chunk} → e.chunk N = some c → lang c = Language.map (toSym N) e.words ∧
    ∀ v ∈ e.words, ∀ x ∈ v, (x.sym N).isSome
  | .node n, c, h => by
    rw [Expr.chunk, Option.map_eq_some_iff] at h
    obtain ⟨i, hi, rfl⟩ := h
    rw [lang, Expr.words]
    have hs : (Named.node n).sym N = some (.node i) := by rw [Named.sym, hi]; rfl
    refine ⟨?_, ?_⟩
    · show _ = Set.image _ _
      rw [show ({[Named.node n]} : Language Named) = ({[Named.node n]} : Set (List Named)) from rfl, Set.image_singleton]
      simp only [List.map, toSym, hs, Option.getD_some]
      rfl
    · intro v hv x hx
      rw [show v = [Named.node n] from hv, List.mem_singleton] at hx
      rw [hx, hs]; rfl
  | .token n, c, h => by
    rw [Expr.chunk, Option.map_eq_some_iff] at h
    obtain ⟨i, hi, rfl⟩ := h
    rw [lang, Expr.words]
    have hs : (Named.type n).sym N = some (.tok i) := by rw [Named.sym, hi]; rfl
    refine ⟨?_, ?_⟩
    · show _ = Set.image _ _
      rw [show ({[Named.type n]} : Language Named) = ({[Named.type n]} : Set (List Named)) from rfl, Set.image_singleton]
      simp only [List.map, toSym, hs, Option.getD_some]
      rfl
    · intro v hv x hx
      rw [show v = [Named.type n] from hv, List.mem_singleton] at hx
      rw [hx, hs]; rfl
  | .eoi, c, h => by
    rw [Expr.chunk] at h
    cases h
    rw [lang, Expr.words]
    refine ⟨?_, ?_⟩
    · show _ = Set.image _ _
      rw [show ({[Named.eoi]} : Language Named) = ({[Named.eoi]} : Set (List Named)) from rfl, Set.image_singleton]
      rfl
    · intro v hv x hx
      rw [show v = [Named.eoi] from hv, List.mem_singleton] at hx
      rw [hx]; rfl
  | .literal n, c, h => by
    rw [Expr.chunk, Option.map_eq_some_iff] at h
    obtain ⟨i, hi, rfl⟩ := h
    rw [lang, Expr.words]
    have hs : (Named.literal n).sym N = some (.tok i) := by rw [Named.sym, hi]; rfl
    refine ⟨?_, ?_⟩
    · show _ = Set.image _ _
      rw [show ({[Named.literal n]} : Language Named) = ({[Named.literal n]} : Set (List Named)) from rfl, Set.image_singleton]
      simp only [List.map, toSym, hs, Option.getD_some]
      rfl
    · intro v hv x hx
      rw [show v = [Named.literal n] from hv, List.mem_singleton] at hx
      rw [hx, hs]; rfl
  | .variant es, c, h => by
    rw [Expr.chunk, Option.map_eq_some_iff] at h
    obtain ⟨cs, hcs, rfl⟩ := h
    rw [lang, Expr.words]
    obtain ⟨-, h1, -, h2⟩ := chunks_lang N es hcs
    exact ⟨h1, h2⟩
  | .group es opt rep, c, h => by
    rw [Expr.chunk, Option.map_eq_some_iff] at h
    obtain ⟨cs, hcs, rfl⟩ := h
    obtain ⟨h1, -, h2, -⟩ := chunks_lang N es hcs
    rw [lang, Expr.words]
    cases rep
    · simp only [Bool.false_eq_true, if_false]
      cases opt
      · simp only [Bool.false_eq_true, if_false]
        exact ⟨h1, h2⟩
      · rw [if_pos rfl, if_pos rfl, map_add, map_one, h1]
        refine ⟨rfl, ?_⟩
        intro v hv x hx
        rcases hv with hv | hv
        · rw [show v = [] from hv] at hx; cases hx
        · exact h2 v hv x hx
    · rw [if_pos rfl, if_pos rfl, Language.map_kstar, h1]
      refine ⟨rfl, ?_⟩
      intro v hv x hx
      rw [Language.mem_kstar] at hv
      obtain ⟨L, rfl, hL⟩ := hv
      obtain ⟨u, hu, hx⟩ := List.mem_flatten.1 hx
      exact h2 u (hL u hu) x hx

theorem chunks_lang (N : Names) : (es : List Expr) → {cs : List Chunk} → Expr.chunks N es = some cs →
    langSeq cs = Language.map (toSym N) (Expr.wordsSeq es) ∧ langAny cs = Language.map (toSym N) (Expr.wordsAny es) ∧
    (∀ v ∈ Expr.wordsSeq es, ∀ x ∈ v, (x.sym N).isSome) ∧ ∀ v ∈ Expr.wordsAny es, ∀ x ∈ v, (x.sym N).isSome
  | [], cs, h => by
    rw [Expr.chunks] at h
    cases h
    rw [langSeq, langAny, Expr.wordsSeq, Expr.wordsAny, map_one, map_zero]
    refine ⟨rfl, rfl, ?_, fun v hv => absurd hv (Language.notMem_zero v)⟩
    intro v hv x hx
    rw [show v = [] from hv] at hx; cases hx
  | e :: es, cs, h => by
    rw [Expr.chunks, Option.bind_eq_some_iff] at h
    obtain ⟨c, hc, h⟩ := h
    rw [Option.map_eq_some_iff] at h
    obtain ⟨cs, hcs, rfl⟩ := h
    obtain ⟨h1, h2⟩ := chunk_lang N e hc
    obtain ⟨h3, h4, h5, h6⟩ := chunks_lang N es hcs
    rw [langSeq, langAny, Expr.wordsSeq, Expr.wordsAny, map_mul, map_add, h1, h3, h4]
    refine ⟨rfl, rfl, ?_, ?_⟩
    · intro v hv x hx
      rw [Language.mem_mul] at hv
      obtain ⟨a, ha, b, hb, rfl⟩ := hv
      rcases List.mem_append.1 hx with hx | hx
      · exact h2 a ha x hx
      · exact h5 b hb x hx
    · intro v hv x hx
      rcases hv with hv | hv
      · exact h2 v hv x hx
      · exact h6 v hv x hx

end

theorem spelled_iff {N : Names} {v : List Named} {w : List Sym} (h : ∀ x ∈ v, (x.sym N).isSome) : v.map (toSym N) = w ↔ Spelled N v w := by
  unfold Spelled
  induction v generalizing w with
  | nil => cases w <;> simp
  | cons x v ih =>
    have ih' := fun w => ih (w := w) (fun y hy => h y (by simp [hy]))
    obtain ⟨y, hy⟩ := Option.isSome_iff_exists.1 (h x (by simp))
    have hx : toSym N x = y := by rw [toSym, hy]; rfl
    cases w with
    | nil => simp
    | cons z w =>
      rw [List.map_cons, List.cons.injEq, List.forall₂_cons, ih', hx, hy, Option.some.injEq]

/-- Words of the structure are words of the text. -/
theorem body_lang {N : Names} {es : List Expr} {chs : List Chunk} (h : Expr.chunks N es = some chs) (w : List Sym) :
    w ∈ lang (.group chs false false) ↔ ∃ v ∈ Expr.wordsSeq es, Spelled N v w := by
  obtain ⟨h1, -, h2, -⟩ := chunks_lang N es h
  rw [lang, if_neg (by simp), if_neg (by simp), h1]
  constructor
  · rintro ⟨v, hv, rfl⟩
    exact ⟨v, hv, (spelled_iff (h2 v hv)).1 rfl⟩
  · rintro ⟨v, hv, hs⟩
    exact ⟨v, hv, (spelled_iff (h2 v hv)).2 hs⟩

/-! Structures -/

theorem chunks_length {N : Names} : ∀ {es : List Expr} {chs : List Chunk}, Expr.chunks N es = some chs → chs.length = es.length
  | [], _, h => by rw [Expr.chunks] at h; cases h; rfl
  | e :: es, _, h => by
    rw [Expr.chunks, Option.bind_eq_some_iff] at h
    obtain ⟨c, -, h⟩ := h
    rw [Option.map_eq_some_iff] at h
    obtain ⟨cs, hcs, rfl⟩ := h
    rw [List.length_cons, List.length_cons, chunks_length hcs]

theorem chunks_single {N : Names} {e : Expr} {chs : List Chunk} (h : Expr.chunks N [e] = some chs) : ∃ c, e.chunk N = some c ∧ chs = [c] := by
  rw [Expr.chunks, Option.bind_eq_some_iff] at h
  obtain ⟨c, hc, h⟩ := h
  rw [Expr.chunks] at h
  cases h
  exact ⟨c, hc, rfl⟩

theorem derives_wf {r : Role} {ts : List LTok} {es : List Expr} (h : Derives r ts es) (N : Names) :
    es ≠ [] ∧ ∀ chs, Expr.chunks N es = some chs → WFs chs := by
  have single : ∀ (e : Expr) (P : ∀ c, e.chunk N = some c → WF c), ∀ chs, Expr.chunks N [e] = some chs → WFs chs := by
    intro e P chs h
    obtain ⟨c, hc, rfl⟩ := chunks_single h
    simp only [WFs]
    exact ⟨P c hc, trivial⟩
  have grp : ∀ (es : List Expr) (opt rep : Bool), (rep = true → opt = true) → (es ≠ [] ∧ ∀ chs, Expr.chunks N es = some chs → WFs chs) →
      ∀ chs, Expr.chunks N [.group es opt rep] = some chs → WFs chs := by
    intro es opt rep ho ih
    refine single _ ?_
    intro c hc
    rw [Expr.chunk, Option.map_eq_some_iff] at hc
    obtain ⟨cs, hcs, rfl⟩ := hc
    rw [WF]
    refine ⟨?_, ho, ih.2 _ hcs⟩
    intro hn
    have := chunks_length hcs
    rw [hn] at this
    exact ih.1 (List.length_eq_zero_iff.1 this.symm)
  induction h with
  | node n =>
    refine ⟨by simp, single _ ?_⟩
    intro c hc
    rw [Expr.chunk, Option.map_eq_some_iff] at hc
    obtain ⟨i, -, rfl⟩ := hc
    trivial
  | eoi =>
    refine ⟨by simp, single _ ?_⟩
    intro c hc
    rw [Expr.chunk] at hc
    cases hc
    trivial
  | token n _ =>
    refine ⟨by simp, single _ ?_⟩
    intro c hc
    rw [Expr.chunk, Option.map_eq_some_iff] at hc
    obtain ⟨i, -, rfl⟩ := hc
    trivial
  | literal n t _ =>
    refine ⟨by simp, single _ ?_⟩
    intro c hc
    rw [Expr.chunk, Option.map_eq_some_iff] at hc
    obtain ⟨i, -, rfl⟩ := hc
    trivial
  | round _ ih => exact ⟨by simp, grp _ _ _ (by simp) ih⟩
  | square _ ih => exact ⟨by simp, grp _ _ _ (by simp) ih⟩
  | curly _ ih => exact ⟨by simp, grp _ _ _ (by simp) ih⟩
  | one _ ih => exact ih
  | more _ _ ih1 ih2 =>
    refine ⟨by simp, ?_⟩
    intro chs h
    rw [Expr.chunks, Option.bind_eq_some_iff] at h
    obtain ⟨c, hc, h⟩ := h
    rw [Option.map_eq_some_iff] at h
    obtain ⟨cs, hcs, rfl⟩ := h
    rw [WFs]
    have := ih1.2 [c] (by rw [Expr.chunks, hc]; rfl)
    rw [WFs] at this
    exact ⟨this.1, ih2.2 cs hcs⟩
  | single _ ih => exact ih
  | @variants _ es _ _ ih =>
    refine ⟨by simp, single _ ?_⟩
    intro c hc
    rw [Expr.chunk, Option.map_eq_some_iff] at hc
    obtain ⟨cs, hcs, rfl⟩ := hc
    rw [WF]
    refine ⟨?_, ih.2 _ hcs⟩
    intro hn
    have := chunks_length hcs
    rw [hn] at this
    exact ih.1 (List.length_eq_zero_iff.1 this.symm)
  | last _ ih => exact ih
  | cons _ _ ih1 ih2 =>
    refine ⟨by simp, ?_⟩
    intro chs h
    rw [Expr.chunks, Option.bind_eq_some_iff] at h
    obtain ⟨c, hc, h⟩ := h
    rw [Option.map_eq_some_iff] at h
    obtain ⟨cs, hcs, rfl⟩ := h
    rw [WFs]
    have := ih1.2 [c] (by rw [Expr.chunks, hc]; rfl)
    rw [WFs] at this
    exact ⟨this.1, ih2.2 cs hcs⟩

mutual

theorem chunk_refs (N : Names) : (e : Expr) → {c : Chunk} → e.chunk N = some c → ∀ j, j ∈ refs c ↔ ∃ n ∈ e.nodes, N.node n = some j
  | .node n, c, h, j => by
    rw [Expr.chunk, Option.map_eq_some_iff] at h
    obtain ⟨i, hi, rfl⟩ := h
    simp [refs, Expr.nodes, hi, eq_comm]
  | .token n, c, h, j => by
    rw [Expr.chunk, Option.map_eq_some_iff] at h
    obtain ⟨i, hi, rfl⟩ := h
    simp [refs, Expr.nodes]
  | .eoi, c, h, j => by
    rw [Expr.chunk] at h
    cases h
    simp [refs, Expr.nodes]
  | .literal n, c, h, j => by
    rw [Expr.chunk, Option.map_eq_some_iff] at h
    obtain ⟨i, hi, rfl⟩ := h
    simp [refs, Expr.nodes]
  | .variant es, c, h, j => by
    rw [Expr.chunk, Option.map_eq_some_iff] at h
    obtain ⟨cs, hcs, rfl⟩ := h
    rw [refs, Expr.nodes]
    exact chunks_refs N es hcs j
  | .group es opt rep, c, h, j => by
    rw [Expr.chunk, Option.map_eq_some_iff] at h
    obtain ⟨cs, hcs, rfl⟩ := h
    rw [refs, Expr.nodes]
    exact chunks_refs N es hcs j

theorem chunks_refs (N : Names) : (es : List Expr) → {cs : List Chunk} → Expr.chunks N es = some cs →
    ∀ j, j ∈ refsAll cs ↔ ∃ n ∈ Expr.nodesOf es, N.node n = some j
  | [], cs, h, j => by
    rw [Expr.chunks] at h
    cases h
    simp [refsAll, Expr.nodesOf]
  | e :: es, cs, h, j => by
    rw [Expr.chunks, Option.bind_eq_some_iff] at h
    obtain ⟨c, hc, h⟩ := h
    rw [Option.map_eq_some_iff] at h
    obtain ⟨cs, hcs, rfl⟩ := h
    rw [refsAll, Expr.nodesOf, Finset.mem_union, chunk_refs N e hc, chunks_refs N es hcs]
    simp only [List.mem_append, or_and_right, exists_or]

end

theorem item_derives {i : BodyItem} {is : List BodyItem} {ts : List LTok} (h : DerivesBody is ts) (hi : i ∈ is) : ∃ us, DerivesItem i us := by
  induction h with
  | nil => cases hi
  | cons h1 _ ih =>
    rcases List.mem_cons.1 hi with rfl | hi
    · exact ⟨_, h1⟩
    · exact ih hi

/-! Tokens -/

theorem enlistLits_tail (ts : List GToken) (ls : List (List Nat)) :
    ∃ c, enlistLits ts ls = ts ++ c ∧ ∀ t ∈ c, t.re = none ∧ t.flags.literal = true := by
  induction ls generalizing ts with
  | nil => exact ⟨[], by simp [enlistLits], by simp⟩
  | cons m ls ih =>
    rw [enlistLits]
    split
    · exact ih ts
    · obtain ⟨c, h1, h2⟩ := ih (ts ++ [{ name := m, re := none, flags := { literal := true } }])
      refine ⟨_ :: c, by rw [h1, List.append_assoc]; rfl, ?_⟩
      intro t ht
      rcases List.mem_cons.1 ht with rfl | ht
      · exact ⟨rfl, rfl⟩
      · exact h2 t ht

theorem enlistLits_distinct (ls : List (List Nat)) : ∀ (ts : List GToken), ((ts.filter fun t => t.flags.literal).map (·.name)).Nodup →
    (((enlistLits ts ls).filter fun t => t.flags.literal).map (·.name)).Nodup := by
  induction ls with
  | nil => intro ts h; exact h
  | cons m ls ih =>
    intro ts h
    rw [enlistLits]
    refine ih _ ?_
    split
    · exact h
    · next hno =>
      rw [List.filter_append, List.map_append, List.nodup_append]
      refine ⟨h, by simp, ?_⟩
      intro a ha b hb hab
      simp only [List.mem_map, List.mem_filter] at ha hb
      obtain ⟨t, ⟨ht, hl⟩, rfl⟩ := ha
      obtain ⟨u, ⟨hu, -⟩, rfl⟩ := hb
      rw [List.mem_singleton] at hu
      subst hu
      exact hno ⟨t, ht, hl, hab⟩

theorem enlistDecl_distinct (ms : List (List Nat × Bool)) : ∀ (l : List (List Nat × Bool)), (l.map Prod.fst).Nodup →
    ((enlistDecl l ms).map Prod.fst).Nodup := by
  induction ms with
  | nil => intro l h; exact h
  | cons m ms ih =>
    intro l h
    rw [enlistDecl]
    refine ih _ ?_
    split
    · exact h
    · next hno =>
      rw [List.map_append, List.nodup_append]
      refine ⟨h, by simp, ?_⟩
      intro a ha b hb hab
      simp only [List.map_cons, List.map_nil, List.mem_singleton] at hb
      subst hb; subst hab
      exact hno ha

theorem headTable_distinct (head : List HeadItem) (D : List (List Nat × List Nat)) :
    (((headTable head D).filter fun t => t.flags.literal).map (·.name)).Nodup := by
  have h1 : (D.map fun d => typeEntry head d.1 (some d.2)).filter (fun t => t.flags.literal) = [] := by
    rw [List.filter_eq_nil_iff]
    intro t ht
    obtain ⟨d, -, rfl⟩ := List.mem_map.1 ht
    exact fun h => by cases h
  have h2 : ((undefinedTypes head D).map fun n => typeEntry head n none).filter (fun t => t.flags.literal) = [] := by
    rw [List.filter_eq_nil_iff]
    intro t ht
    obtain ⟨d, -, rfl⟩ := List.mem_map.1 ht
    exact fun h => by cases h
  have h3 : ∀ l : List (List Nat × Bool), (l.map literalEntry).filter (fun t => t.flags.literal) = l.map literalEntry := by
    intro l
    rw [List.filter_eq_self]
    intro t ht
    obtain ⟨d, -, rfl⟩ := List.mem_map.1 ht
    rfl
  unfold headTable
  rw [List.filter_append, List.filter_append, h1, h2, h3, List.nil_append, List.nil_append, List.map_map]
  exact enlistDecl_distinct _ [] (by simp)

/-! Grammars -/

theorem langParse_steps {upper : List Nat → List Nat} {find : List Nat → List Nat → List Nat} {okRe : List Nat → Bool}
    {order1 order2 order3 : List Nat} {fuel : Nat} {inp : List (Except LErr LTok)} {p : Parsed}
    (h : langParse upper find okRe order1 order2 order3 fuel inp = .done (.ok p)) :
    ∃ c, Verif.Model.LangDef.read okRe fuel inp = .done (.ok c) ∧
      compile upper (findRe find c.tokens) c.tokens (c.nodes.map NodeEntry.chunk) order1 order2 order3 fuel = .done (.ok p.grammar) ∧
      p.names = c.nodes.map NodeEntry.name ∧ p.layers = c.layers := by
  unfold langParse at h
  rw [bindRun_done] at h
  obtain ⟨r, hr, h⟩ := h
  split at h
  · cases h
  · next c =>
    rw [bindRun_done] at h
    obtain ⟨r2, hc, h⟩ := h
    split at h
    · cases h
    · cases h
      exact ⟨c, hr, hc, rfl, rfl⟩

theorem defined_once : ∀ {body : List BodyItem}, (body.flatMap BodyItem.defined).Nodup → ∀ {n es es'}, BodyItem.node n es ∈ body →
    BodyItem.node n es' ∈ body → es = es' := by
  intro body
  induction body with
  | nil => intro _ n es es' h; cases h
  | cons i body ih =>
    intro hd n es es' h h'
    rw [List.flatMap_cons, List.nodup_append] at hd
    obtain ⟨-, hd, hx⟩ := hd
    rcases List.mem_cons.1 h with rfl | h1 <;> rcases List.mem_cons.1 h' with h' | h'
    · cases h'; rfl
    · exact absurd rfl (hx n (by simp [BodyItem.defined]) n (List.mem_flatMap.2 ⟨_, h', by simp [BodyItem.defined]⟩))
    · subst h'
      exact absurd rfl (hx n (by simp [BodyItem.defined]) n (List.mem_flatMap.2 ⟨_, h1, by simp [BodyItem.defined]⟩))
    · exact ih hd h1 h'

theorem denoted_unique {body : List BodyItem} {ts : List GToken} {bodies bodies' : List Chunk} (hd : (body.flatMap BodyItem.defined).Nodup)
    (h : Denoted body ts bodies) (h' : Denoted body ts bodies') : bodies = bodies' := by
  apply List.ext_getElem?
  intro i
  by_cases hi : i < (nodeList body).length
  · obtain ⟨es, chs, h1, h2, h3⟩ := h.each i _ (List.getElem?_eq_getElem hi)
    obtain ⟨es', chs', h4, h5, h6⟩ := h'.each i _ (List.getElem?_eq_getElem hi)
    have := defined_once hd h1 h4
    subst this
    rw [h2] at h5
    cases h5
    rw [h3, h6]
  · rw [List.getElem?_eq_none (by rw [h.count]; omega), List.getElem?_eq_none (by rw [h'.count]; omega)]

/-- Structures of nodes when all nodes are defined. -/
theorem nodes_denoted {head : List HeadItem} {body : List BodyItem} {c : Ctx} (h : Nodes head body c) {bodies : List Chunk}
    (hall : c.nodes.map NodeEntry.chunk = bodies.map some) : Denoted body c.tokens bodies := by
  have hnames : c.nodes.map NodeEntry.name = nodeList body := h.names
  have hnd : (nodeList body).Nodup := enlist_nodup _ [] (by simp)
  have hlen : c.nodes.length = bodies.length := by
    have := congrArg List.length hall
    simpa using this
  refine ⟨?_, ?_⟩
  · rw [← hnames, List.length_map, hlen]
  · intro i n hn
    have hi : i < c.nodes.length := by
      have := (List.getElem?_eq_some_iff.1 hn).1
      rw [← hnames, List.length_map] at this
      exact this
    have hnm : (c.nodes[i]).name = n := by
      rw [← hnames, List.getElem?_map, List.getElem?_eq_getElem hi] at hn
      simpa using hn
    have hch : (c.nodes[i]).chunk = some (bodies[i]'(by omega)) := by
      have := congrArg (fun l => l[i]?) hall
      simp only [List.getElem?_map] at this
      rw [List.getElem?_eq_getElem hi, List.getElem?_eq_getElem (by omega)] at this
      simpa using this
    by_cases hdef : n ∈ body.flatMap BodyItem.defined
    · obtain ⟨it, hit, hn'⟩ := List.mem_flatMap.1 hdef
      cases it with
      | layer l => cases hn'
      | node m es =>
        simp only [BodyItem.defined, List.mem_singleton] at hn'
        subst hn'
        obtain ⟨e, he, hname, chs, h1, h2, -⟩ := h.defined _ _ hit
        refine ⟨es, chs, hit, by rw [← hnames]; exact h1, ?_⟩
        obtain ⟨j, hj⟩ := List.getElem?_of_mem he
        have hjl := (List.getElem?_eq_some_iff.1 hj).1
        have hje : c.nodes[j] = e := (List.getElem?_eq_some_iff.1 hj).2
        have hij : i = j := by
          refine (List.Nodup.getElem_inj_iff (l := c.nodes.map NodeEntry.name) (by rw [hnames]; exact hnd) (hi := by simpa using hi) (hj := by simpa using hjl)).1 ?_
          rw [List.getElem_map, List.getElem_map, hje, hname, hnm]
        subst hij
        rw [hje, h2] at hch
        rw [List.getElem?_eq_getElem (by omega)]
        exact hch.symm
    · have := (h.undefined c.nodes[i] (List.getElem_mem _) (by rw [hnm]; exact hdef)).1
      rw [hch] at this
      cases this

theorem denoted_wf {head : List HeadItem} {body : List BodyItem} {inp : List (Except LErr LTok)} (hi : IsDescription head body inp)
    {ts : List GToken} {bodies : List Chunk} (h : Denoted body ts bodies) : ∀ c ∈ bodies, WF c ∧ IsBody c ∧ ∀ j ∈ refs c, j < bodies.length := by
  intro c hc
  obtain ⟨i, hb⟩ := List.getElem?_of_mem hc
  have hil := (List.getElem?_eq_some_iff.1 hb).1
  rw [h.count] at hil
  obtain ⟨es, chs, h1, h2, h3⟩ := h.each i _ (List.getElem?_eq_getElem hil)
  rw [hb] at h3
  cases h3
  obtain ⟨_, ts2, _, _, _, -, -, hbody, -⟩ := hi
  obtain ⟨us, hus⟩ := item_derives hbody h1
  cases hus with
  | node _ hd =>
    obtain ⟨hne, hwf⟩ := derives_wf hd (namesOf ts (nodeList body))
    refine ⟨?_, by simp [IsBody], ?_⟩
    · rw [WF]
      refine ⟨?_, by simp, hwf _ h2⟩
      intro hn
      have := chunks_length h2
      rw [hn] at this
      exact hne (List.length_eq_zero_iff.1 this.symm)
    · intro j hj
      rw [refs, chunks_refs _ _ h2] at hj
      obtain ⟨n, -, hn⟩ := hj
      rw [h.count]
      unfold namesOf at hn
      exact (List.findIdx?_eq_some_iff_getElem.1 hn).1

/-! Definitions in the text -/

theorem definition_some {body : List BodyItem} {n : List Nat} {es : List Expr} (h : body.findSome? (BodyItem.definition n) = some es) :
    BodyItem.node n es ∈ body := by
  obtain ⟨i, hi, hd⟩ := List.exists_of_findSome?_eq_some h
  cases i with
  | layer l => cases hd
  | node m es' =>
    rw [BodyItem.definition] at hd
    split at hd
    · next hm => cases hd; rw [← hm]; exact hi
    · cases hd

theorem definition_none {body : List BodyItem} {n : List Nat} (h : body.findSome? (BodyItem.definition n) = none) :
    n ∉ body.flatMap BodyItem.defined := by
  intro hn
  obtain ⟨i, hi, hd⟩ := List.mem_flatMap.1 hn
  rw [List.findSome?_eq_none_iff] at h
  have := h i hi
  cases i with
  | layer l => cases hd
  | node m es =>
    rw [BodyItem.defined, List.mem_singleton] at hd
    rw [BodyItem.definition, if_pos hd.symm] at this
    cases this

theorem nodes_textDefs {head : List HeadItem} {body : List BodyItem} {c : Ctx} (h : Nodes head body c) :
    c.nodes.map NodeEntry.chunk = textDefs body c.tokens := by
  have hnames : c.nodes.map NodeEntry.name = nodeList body := h.names
  have hnd : (nodeList body).Nodup := enlist_nodup _ [] (by simp)
  unfold textDefs
  rw [← hnames, List.map_map]
  refine List.map_congr_left ?_
  intro e he
  rw [Function.comp_apply]
  cases hx : body.findSome? (BodyItem.definition e.name) with
  | none => exact (h.undefined e he (definition_none hx)).1
  | some es =>
    obtain ⟨e', he', hn, chs, h1, h2, -⟩ := h.defined _ _ (definition_some hx)
    have : e' = e := by
      rw [← hnames] at hnd
      exact List.inj_on_of_nodup_map hnd he' he hn
    subst this
    rw [Option.bind_some, h1, h2]
    rfl

mutual

theorem chunk_below (N : Names) {n : Nat} (ht : ∀ x i, N.token x = some i → i < n) (hl : ∀ x i, N.literal x = some i → i < n) :
    (e : Expr) → {c : Chunk} → e.chunk N = some c → c.Below n
  | .node _, c, h => by
    rw [Expr.chunk, Option.map_eq_some_iff] at h
    obtain ⟨i, hi, rfl⟩ := h
    trivial
  | .token _, c, h => by
    rw [Expr.chunk, Option.map_eq_some_iff] at h
    obtain ⟨i, hi, rfl⟩ := h
    exact ht _ _ hi
  | .eoi, c, h => by
    rw [Expr.chunk] at h
    cases h
    trivial
  | .literal _, c, h => by
    rw [Expr.chunk, Option.map_eq_some_iff] at h
    obtain ⟨i, hi, rfl⟩ := h
    exact hl _ _ hi
  | .variant es, c, h => by
    rw [Expr.chunk, Option.map_eq_some_iff] at h
    obtain ⟨cs, hcs, rfl⟩ := h
    exact chunks_below N ht hl es hcs
  | .group es opt rep, c, h => by
    rw [Expr.chunk, Option.map_eq_some_iff] at h
    obtain ⟨cs, hcs, rfl⟩ := h
    exact chunks_below N ht hl es hcs

theorem chunks_below (N : Names) {n : Nat} (ht : ∀ x i, N.token x = some i → i < n) (hl : ∀ x i, N.literal x = some i → i < n) :
    (es : List Expr) → {cs : List Chunk} → Expr.chunks N es = some cs → Chunk.BelowAll n cs
  | [], cs, h => by
    rw [Expr.chunks] at h
    cases h
    trivial
  | e :: es, cs, h => by
    rw [Expr.chunks, Option.bind_eq_some_iff] at h
    obtain ⟨c, hc, h⟩ := h
    rw [Option.map_eq_some_iff] at h
    obtain ⟨cs, hcs, rfl⟩ := h
    exact ⟨chunk_below N ht hl e hc, chunks_below N ht hl es hcs⟩

end

theorem textDefs_wf {head : List HeadItem} {body : List BodyItem} {inp : List (Except LErr LTok)} (hi : IsDescription head body inp)
    {ts : List GToken} : ∀ ch, some ch ∈ textDefs body ts → WF ch ∧ IsBody ch ∧ ch.Below ts.length ∧ ∀ j ∈ refs ch, j < (textDefs body ts).length := by
  intro ch hc
  unfold textDefs at hc
  obtain ⟨n, -, hn⟩ := List.mem_map.1 hc
  rw [Option.bind_eq_some_iff] at hn
  obtain ⟨es, h1, h2⟩ := hn
  rw [Option.map_eq_some_iff] at h2
  obtain ⟨chs, h2, rfl⟩ := h2
  obtain ⟨_, ts2, _, _, _, -, -, hbody, -⟩ := hi
  obtain ⟨us, hus⟩ := item_derives hbody (definition_some h1)
  cases hus with
  | node _ hd =>
    obtain ⟨hne, hwf⟩ := derives_wf hd (namesOf ts (nodeList body))
    refine ⟨?_, by simp [IsBody], ?_, ?_⟩
    · rw [WF]
      refine ⟨?_, by simp, hwf _ h2⟩
      intro hn
      have := chunks_length h2
      rw [hn] at this
      exact hne (List.length_eq_zero_iff.1 this.symm)
    · refine chunks_below _ ?_ ?_ es h2
      · intro x i hx
        exact (List.findIdx?_eq_some_iff_getElem.1 hx).1
      · intro x i hx
        exact (List.findIdx?_eq_some_iff_getElem.1 hx).1
    · intro j hj
      rw [refs, chunks_refs _ _ h2] at hj
      obtain ⟨n, -, hn⟩ := hj
      unfold textDefs
      rw [List.length_map]
      exact (List.findIdx?_eq_some_iff_getElem.1 hn).1

end Verif.Proof.LangDef
