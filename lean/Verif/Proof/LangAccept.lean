/-
Descriptions that satisfy documented restrictions are accepted: definitions of nodes and layers.
-/
import Verif.Proof.LangMeaning

namespace Verif.Proof.LangDef

open Verif.Model Verif.Model.LangDef Verif.Spec.LangDef

theorem need_run {f : Feed} {t : LTok} {r : List (Except LErr LTok)} (h : rest f = .ok t :: r) {types : List (List Nat)}
    (hm : Match types t) : ∃ f', need types f = .done (.ok (t, f')) ∧ rest f' = r := by
  obtain ⟨f', h1, h2⟩ := fetch_match h hm true
  refine ⟨f', ?_, h2⟩
  unfold need
  rw [h1]
  rfl

theorem try_run {f : Feed} {t : LTok} {r : List (Except LErr LTok)} (h : rest f = .ok t :: r) {types : List (List Nat)}
    (hm : Match types t) : ∃ f', tryFetch types f = .done (.ok (some t, f')) ∧ rest f' = r := by
  obtain ⟨f', h1, h2⟩ := fetch_match h hm false
  refine ⟨f', ?_, h2⟩
  unfold tryFetch
  rw [h1]
  rfl

theorem try_none {f : Feed} {t : LTok} {r : List (Except LErr LTok)} (h : rest f = .ok t :: r) (ht : LexTok t) {types : List (List Nat)}
    (hm : ¬ Match types t) : ∃ f', tryFetch types f = .done (.ok (none, f')) ∧ rest f' = rest f := by
  obtain ⟨-, f', h1, h2⟩ := fetch_other h (lexTok_eof ht) hm
  refine ⟨f', ?_, h2⟩
  unfold tryFetch
  rw [h1]
  rfl

theorem match_self (b : Nat) : Match [[b]] (op b) := .inr (by simp [op])

/-- Expressions that may be used in a context. -/
def Fit (c : Ctx) (es : List Expr) : Prop :=
  (∀ n ∈ Expr.typesOf es, Usable c.tokens n) ∧
    (c.restrictLiterals = true → ∀ m ∈ Expr.litsOf es, ∃ t ∈ c.tokens, t.flags.literal = true ∧ t.name = m)

theorem usable_prefix {ts ts' : List GToken} (h : ts <+: ts') {n : List Nat} (hu : Usable ts n) : Usable ts' n := by
  obtain ⟨r, rfl⟩ := h
  obtain ⟨i, t, h1, h2, h3⟩ := hu
  refine ⟨i, t, ?_, ?_, h3⟩
  · rw [List.findIdx?_append, h1]; rfl
  · rw [List.getElem?_append_left (List.getElem?_eq_some_iff.1 h2).1]; exact h2

theorem Fit.step {name : List Nat} {c c' : Ctx} {es es' : List Expr} {chs : List Chunk} (h : Fit c es') (hx : ExprOk name c es chs c') : Fit c' es' := by
  have hp : c.tokens <+: c'.tokens := by rw [hx.tokens]; exact enlistLits_prefix _ _
  refine ⟨fun n hn => usable_prefix hp (h.1 n hn), ?_⟩
  intro hr m hm
  have hr' : c.restrictLiterals = true := by
    have := hx.same
    rw [this] at hr
    exact hr
  obtain ⟨t, ht, h1⟩ := h.2 hr' m hm
  exact ⟨t, hp.subset ht, h1⟩

theorem Fit.left {c : Ctx} {e : Expr} {es : List Expr} (h : Fit c (e :: es)) : Fit c [e] :=
  ⟨fun n hn => h.1 n (by simp only [Expr.typesOf, List.append_nil] at hn ⊢; exact List.mem_append_left _ hn),
    fun hr m hm => h.2 hr m (by simp only [Expr.litsOf, List.append_nil] at hm ⊢; exact List.mem_append_left _ hm)⟩

theorem Fit.right {c : Ctx} {e : Expr} {es : List Expr} (h : Fit c (e :: es)) : Fit c es :=
  ⟨fun n hn => h.1 n (by simp only [Expr.typesOf]; exact List.mem_append_right _ hn),
    fun hr m hm => h.2 hr m (by simp only [Expr.litsOf]; exact List.mem_append_right _ hm)⟩

theorem Fit.inner {c : Ctx} {e : Expr} {es : List Expr} (h : Fit c [e]) (h1 : e.types = Expr.typesOf es) (h2 : e.lits = Expr.litsOf es) : Fit c es :=
  ⟨fun n hn => h.1 n (by simpa [Expr.typesOf, h1] using hn), fun hr m hm => h.2 hr m (by simpa [Expr.litsOf, h2] using hm)⟩

/-- What has been read is known. -/
theorem read_exprOk {r : Role} {name : List Nat} {c c' : Ctx} {f f' : Feed} {chs : List Chunk} {ts : List LTok} {es : List Expr}
    (h : Read r name c f chs c' f') (he : rest f = ts.map .ok ++ rest f') (hd : Derives r ts es) : ExprOk name c es chs c' := by
  obtain ⟨ts', es', e, d, x⟩ := h
  rw [he] at e
  have := List.append_cancel_right e
  have := List.map_injective_iff.2 (fun a b (h : (Except.ok a : Except LErr LTok) = .ok b) => by cases h; rfl) this
  subst this
  obtain ⟨-, rfl⟩ := derives_unique hd d (u := []) (u' := []) rfl (by cases r <;> simp [Stop]) (by cases r <;> simp [Stop])
  exact x

/-- Reading succeeds. -/
def Runs (r : Role) (fuel : Nat) (name : List Nat) (c : Ctx) (f : Feed) (u : List (Except LErr LTok)) : Prop :=
  match r with
  | .var => ∃ ch c' f', parseVariant fuel name c f = .done (.ok (ch, c', f')) ∧ rest f' = u
  | .alts => ∃ chs c' f', moreVariants fuel name c f = .done (.ok (chs, c', f')) ∧ rest f' = u
  | .item => ∃ ch c' f', parseVariants fuel name c f = .done (.ok (ch, c', f')) ∧ rest f' = u
  | .seq => ∃ chs c' f', parseGroup fuel name c f = .done (.ok (chs, c', f')) ∧ rest f' = u

/-- Enough steps. -/
def steps : Role → Nat → Nat
  | .var, n => 3 * n
  | .alts, n => 3 * n + 1
  | .item, n => 3 * n + 1
  | .seq, n => 3 * n + 2

/-- What follows. -/
def StopTok : Role → LTok → Prop
  | .var, _ => True
  | .alts, t => t ≠ op 124
  | .item, t => t ≠ op 124
  | .seq, t => t ≠ op 124 ∧ t ≠ op 44

theorem not_match_op {t : LTok} (hl : LexTok t) {b : Nat} (hb : b ∈ [40, 41, 123, 125, 91, 93, 61, 124, 44, 59, 64]) (h : t ≠ op b) : ¬ Match [[b]] t :=
  fun hm => h (match_ops hl hm hb)

theorem parseVariants_of_more {fuel : Nat} {name : List Nat} {c c' : Ctx} {f f' : Feed} {chs : List Chunk}
    (h : moreVariants (fuel + 1) name c f = .done (.ok (chs, c', f'))) : ∃ ch, parseVariants (fuel + 1) name c f = .done (.ok (ch, c', f')) := by
  rw [moreVariants, bindL_ok] at h
  obtain ⟨⟨ch, c1, f1⟩, h1, h⟩ := h
  dsimp only at h
  rw [bindL_ok] at h
  obtain ⟨⟨t, f2⟩, h2, h⟩ := h
  rw [parseVariants, h1]
  simp only [bindL]
  rw [h2]
  cases t with
  | none =>
    cases h
    exact ⟨ch, rfl⟩
  | some t =>
    dsimp only at h ⊢
    rw [bindL_ok] at h
    obtain ⟨⟨chs', c2, f3⟩, h3, h⟩ := h
    cases h
    rw [h3]
    exact ⟨_, rfl⟩

theorem group_runs {fuel : Nat} {name : List Nat} {c : Ctx} {f : Feed} {u : List (Except LErr LTok)} {b e : Nat}
    (hb : (b = 40 ∧ e = 41) ∨ (b = 91 ∧ e = 93) ∨ (b = 123 ∧ e = 125)) {v : List (Except LErr LTok)} (h0 : rest f = .ok (op b) :: v)
    (hrun : ∀ f2, rest f2 = v → Runs .seq fuel name c f2 (.ok (op e) :: u)) :
    Runs .var (fuel + 1) name c f u := by
  have hm : Match [Kind.name.text, Kind.tokenName.text, Kind.string.text, opLBrace, opLSquare, opLCurly] (op b) := by
    refine .inr ?_
    rcases hb with ⟨rfl, rfl⟩ | ⟨rfl, rfl⟩ | ⟨rfl, rfl⟩ <;> simp [op, opLBrace, opLSquare, opLCurly]
  obtain ⟨f2, h1, h2⟩ := need_run h0 hm
  obtain ⟨chs, c2, f3, h3, h4⟩ := hrun f2 h2
  unfold Runs
  simp only
  rw [parseVariant, h1]
  simp only [bindL]
  rw [show (op b).kind = .op from rfl]
  dsimp only
  rw [h3]
  simp only
  have hlast : (if decide ((op b).text = opLCurly) = true then opRCurly else if decide ((op b).text ≠ opLBrace) = true then opRSquare else opRBrace) = [e] := by
    rcases hb with ⟨rfl, rfl⟩ | ⟨rfl, rfl⟩ | ⟨rfl, rfl⟩ <;> decide
  rw [hlast]
  obtain ⟨f4, h5, h6⟩ := need_run h4 (match_self e)
  rw [h5]
  exact ⟨_, _, _, rfl, h6⟩

theorem derives_run {r : Role} {ts : List LTok} {es : List Expr} (h : Derives r ts es) : ∀ (fuel : Nat) (name : List Nat) (c : Ctx) (f : Feed)
    (t : LTok) (u : List (Except LErr LTok)), rest f = ts.map .ok ++ .ok t :: u → Known name c → BInv c → Lexed (rest f) → Fit c es →
    StopTok r t → steps r ts.length ≤ fuel → Runs r fuel name c f (.ok t :: u) := by
  induction h with
  | node n =>
    intro fuel name c f t u he hk hb hl hf hs hfuel
    obtain ⟨fuel, rfl⟩ : ∃ k, fuel = k + 1 := ⟨fuel - 1, by simp [steps] at hfuel; omega⟩
    obtain ⟨f1, h1, h2⟩ := need_run (types := [Kind.name.text, Kind.tokenName.text, Kind.string.text, opLBrace, opLSquare, opLCurly]) he
      (.inl (by simp))
    unfold Runs
    simp only
    rw [parseVariant, h1]
    simp only [bindL]
    obtain ⟨⟨l, e1⟩, hkn, -⟩ := addNode_names c n false
    obtain ⟨j, hj⟩ : ∃ j, nodeIndex (declareNode c n false).2 name = some j := by
      obtain ⟨k, hk'⟩ := known_index hk
      refine ⟨k, ?_⟩
      rw [nodeIndex_names] at hk' ⊢
      refine findIdx?_prefix ?_ hk'
      rw [(declareNode_spec c n).1]
      exact enlist_prefix _ _
    rw [hj]
    exact ⟨_, _, _, rfl, h2⟩
  | eoi =>
    intro fuel name c f t u he hk hb hl hf hs hfuel
    obtain ⟨fuel, rfl⟩ : ∃ k, fuel = k + 1 := ⟨fuel - 1, by simp [steps] at hfuel; omega⟩
    obtain ⟨f1, h1, h2⟩ := need_run (types := [Kind.name.text, Kind.tokenName.text, Kind.string.text, opLBrace, opLSquare, opLCurly]) he
      (.inl (by simp [typeTok]))
    unfold Runs
    simp only
    rw [parseVariant, h1]
    simp only [bindL, typeTok]
    rw [tail1_cons]
    simp only [orPanic, if_true]
    exact ⟨_, _, _, rfl, h2⟩
  | token n hn =>
    intro fuel name c f t u he hk hb hl hf hs hfuel
    obtain ⟨fuel, rfl⟩ : ∃ k, fuel = k + 1 := ⟨fuel - 1, by simp [steps] at hfuel; omega⟩
    obtain ⟨f1, h1, h2⟩ := need_run (types := [Kind.name.text, Kind.tokenName.text, Kind.string.text, opLBrace, opLSquare, opLCurly]) he
      (.inl (by simp [typeTok]))
    obtain ⟨i, x, g1, g2, g3, g4⟩ := hf.1 n (by simp [Expr.typesOf, Expr.types])
    unfold Runs
    simp only
    rw [parseVariant, h1]
    simp only [bindL, typeTok]
    rw [tail1_cons]
    have hlook : c.tokenIndex.lookup n = some i := by rw [hb.token]; exact g1
    simp only [orPanic, if_neg hn]
    rw [hlook]
    simp only [g2, g3, g4]
    exact ⟨_, _, _, rfl, h2⟩
  | literal n t0 hstr =>
    intro fuel name c f t u he hk hb hl hf hs hfuel
    obtain ⟨fuel, rfl⟩ : ∃ k, fuel = k + 1 := ⟨fuel - 1, by simp [steps] at hfuel; omega⟩
    obtain ⟨f1, h1, h2⟩ := need_run (types := [Kind.name.text, Kind.tokenName.text, Kind.string.text, opLBrace, opLSquare, opLCurly]) he
      (.inl (by rw [isString_kind hstr]; simp))
    obtain ⟨q, rfl⟩ := hstr
    unfold Runs
    simp only
    rw [parseVariant, h1]
    simp only [bindL]
    rw [inner_some]
    simp only [orPanic]
    cases hx : c.literalIndex.lookup n with
    | some i => exact ⟨_, _, _, rfl, h2⟩
    | none =>
      have hr : ¬ c.restrictLiterals = true := by
        intro hr
        obtain ⟨x, hx1⟩ := (literal_mem hb n).1 (hf.2 hr n (by simp [Expr.litsOf, Expr.lits]))
        rw [hx] at hx1
        cases hx1
      dsimp only
      rw [if_neg hr]
      exact ⟨_, _, _, rfl, h2⟩
  | @round ts es h ih =>
    intro fuel name c f t u he hk hb hl hf hs hfuel
    obtain ⟨fuel, rfl⟩ : ∃ k, fuel = k + 1 := ⟨fuel - 1, by simp [steps] at hfuel; omega⟩
    refine group_runs (b := 40) (e := 41) (by simp) (v := ts.map .ok ++ .ok (op 41) :: .ok t :: u) (by rw [he]; simp) ?_
    intro f2 hf2
    have hl2 : Lexed (rest f2) := lexed_suffix hl (by rw [hf2, he]; exact ⟨[.ok (op 40)], by simp⟩)
    refine ih fuel name c f2 _ _ (by rw [hf2]) hk hb hl2 (hf.inner (by simp [Expr.types]) (by simp [Expr.lits])) (by simp [StopTok, op]) ?_
    simp [steps] at hfuel ⊢
    omega
  | @square ts es h ih =>
    intro fuel name c f t u he hk hb hl hf hs hfuel
    obtain ⟨fuel, rfl⟩ : ∃ k, fuel = k + 1 := ⟨fuel - 1, by simp [steps] at hfuel; omega⟩
    refine group_runs (b := 91) (e := 93) (by simp) (v := ts.map .ok ++ .ok (op 93) :: .ok t :: u) (by rw [he]; simp) ?_
    intro f2 hf2
    have hl2 : Lexed (rest f2) := lexed_suffix hl (by rw [hf2, he]; exact ⟨[.ok (op 91)], by simp⟩)
    refine ih fuel name c f2 _ _ (by rw [hf2]) hk hb hl2 (hf.inner (by simp [Expr.types]) (by simp [Expr.lits])) (by simp [StopTok, op]) ?_
    simp [steps] at hfuel ⊢
    omega
  | @curly ts es h ih =>
    intro fuel name c f t u he hk hb hl hf hs hfuel
    obtain ⟨fuel, rfl⟩ : ∃ k, fuel = k + 1 := ⟨fuel - 1, by simp [steps] at hfuel; omega⟩
    refine group_runs (b := 123) (e := 125) (by simp) (v := ts.map .ok ++ .ok (op 125) :: .ok t :: u) (by rw [he]; simp) ?_
    intro f2 hf2
    have hl2 : Lexed (rest f2) := lexed_suffix hl (by rw [hf2, he]; exact ⟨[.ok (op 123)], by simp⟩)
    refine ih fuel name c f2 _ _ (by rw [hf2]) hk hb hl2 (hf.inner (by simp [Expr.types]) (by simp [Expr.lits])) (by simp [StopTok, op]) ?_
    simp [steps] at hfuel ⊢
    omega
  | @one ts e h ih =>
    intro fuel name c f t u he hk hb hl hf hs hfuel
    obtain ⟨fuel, rfl⟩ : ∃ k, fuel = k + 1 := ⟨fuel - 1, by simp [steps] at hfuel; omega⟩
    obtain ⟨ch, c1, f1, h1, h2⟩ := ih fuel name c f t u he hk hb hl hf trivial (by simp [steps] at hfuel ⊢; omega)
    have ht : LexTok t := hl t (by rw [he]; simp)
    obtain ⟨f2, h3, h4⟩ := try_none h2 ht (types := [opPipe]) (not_match_op ht (by simp) hs)
    unfold Runs
    simp only
    rw [moreVariants, h1]
    simp only [bindL]
    rw [h3]
    exact ⟨_, _, _, rfl, by rw [h4, h2]⟩
  | @more ts ts' e es h1 h2 ih1 ih2 =>
    intro fuel name c f t u he hk hb hl hf hs hfuel
    obtain ⟨fuel, rfl⟩ : ∃ k, fuel = k + 1 := ⟨fuel - 1, by simp [steps] at hfuel; omega⟩
    have he' : rest f = ts.map .ok ++ .ok (op 124) :: (ts'.map .ok ++ .ok t :: u) := by rw [he]; simp
    obtain ⟨ch, c1, f1, r1, r2⟩ := ih1 fuel name c f (op 124) (ts'.map .ok ++ .ok t :: u) he' hk hb hl hf.left trivial
      (by simp [steps] at hfuel ⊢; omega)
    have x1 := read_exprOk (parseVariant_read fuel name c f ch c1 f1 hk hb hl r1) (by rw [he', r2]) h1
    obtain ⟨f2, h3, h4⟩ := try_run r2 (types := [opPipe]) (match_self 124)
    have hl2 : Lexed (rest f2) := lexed_suffix hl (by rw [he', h4]; exact ⟨ts.map .ok ++ [.ok (op 124)], by simp⟩)
    obtain ⟨chs, c2, f3, r3, r4⟩ := ih2 fuel name c1 f2 t u h4 (x1.known hk) x1.inv hl2 (hf.right.step x1) hs
      (by simp [steps] at hfuel ⊢; omega)
    unfold Runs
    simp only
    rw [moreVariants, r1]
    simp only [bindL]
    rw [h3]
    dsimp only
    rw [r3]
    exact ⟨_, _, _, rfl, r4⟩
  | @single ts e h ih =>
    intro fuel name c f t u he hk hb hl hf hs hfuel
    obtain ⟨chs, c1, f1, r1, r2⟩ := ih fuel name c f t u he hk hb hl hf hs hfuel
    obtain ⟨fuel, rfl⟩ : ∃ k, fuel = k + 1 := ⟨fuel - 1, by simp [steps] at hfuel; omega⟩
    obtain ⟨ch, h1⟩ := parseVariants_of_more r1
    exact ⟨ch, c1, f1, h1, r2⟩
  | @variants ts es h hlen ih =>
    intro fuel name c f t u he hk hb hl hf hs hfuel
    obtain ⟨chs, c1, f1, r1, r2⟩ := ih fuel name c f t u he hk hb hl (hf.inner (by simp [Expr.types]) (by simp [Expr.lits])) hs hfuel
    obtain ⟨fuel, rfl⟩ : ∃ k, fuel = k + 1 := ⟨fuel - 1, by simp [steps] at hfuel; omega⟩
    obtain ⟨ch, h1⟩ := parseVariants_of_more r1
    exact ⟨ch, c1, f1, h1, r2⟩
  | @last ts e h ih =>
    intro fuel name c f t u he hk hb hl hf hs hfuel
    obtain ⟨fuel, rfl⟩ : ∃ k, fuel = k + 1 := ⟨fuel - 1, by simp [steps] at hfuel; omega⟩
    obtain ⟨ch, c1, f1, h1, h2⟩ := ih fuel name c f t u he hk hb hl hf hs.1 (by simp [steps] at hfuel ⊢; omega)
    have ht : LexTok t := hl t (by rw [he]; simp)
    obtain ⟨f2, h3, h4⟩ := try_none h2 ht (types := [opComma]) (not_match_op ht (by simp) hs.2)
    unfold Runs
    simp only
    rw [parseGroup, h1]
    simp only [bindL]
    rw [h3]
    exact ⟨_, _, _, rfl, by rw [h4, h2]⟩
  | @cons ts ts' e es h1 h2 ih1 ih2 =>
    intro fuel name c f t u he hk hb hl hf hs hfuel
    obtain ⟨fuel, rfl⟩ : ∃ k, fuel = k + 1 := ⟨fuel - 1, by simp [steps] at hfuel; omega⟩
    have he' : rest f = ts.map .ok ++ .ok (op 44) :: (ts'.map .ok ++ .ok t :: u) := by rw [he]; simp
    obtain ⟨ch, c1, f1, r1, r2⟩ := ih1 fuel name c f (op 44) (ts'.map .ok ++ .ok t :: u) he' hk hb hl hf.left (by simp [StopTok, op])
      (by simp [steps] at hfuel ⊢; omega)
    have x1 := read_exprOk (parseVariants_read fuel name c f ch c1 f1 hk hb hl r1) (by rw [he', r2]) h1
    obtain ⟨f2, h3, h4⟩ := try_run r2 (types := [opComma]) (match_self 44)
    have hl2 : Lexed (rest f2) := lexed_suffix hl (by rw [he', h4]; exact ⟨ts.map .ok ++ [.ok (op 44)], by simp⟩)
    obtain ⟨chs, c2, f3, r3, r4⟩ := ih2 fuel name c1 f2 t u h4 (x1.known hk) x1.inv hl2 (hf.right.step x1) hs
      (by simp [steps] at hfuel ⊢; omega)
    unfold Runs
    simp only
    rw [parseGroup, r1]
    simp only [bindL]
    rw [h3]
    dsimp only
    rw [r3]
    exact ⟨_, _, _, rfl, r4⟩

/-! Layers -/

theorem isArg_value {a : List Nat} {t : LTok} (h : IsArg a t) : (if t.kind = .string then innerText t.text else some t.text) = some a := by
  rcases h with rfl | ⟨q, rfl⟩
  · rfl
  · exact inner_some

theorem isArg_match {a : List Nat} {t : LTok} (h : IsArg a t) : Match [Kind.string.text, Kind.name.text] t := by
  rcases h with rfl | ⟨q, rfl⟩ <;> exact .inl (by simp)

theorem isArg_kind {a : List Nat} {t : LTok} (h : IsArg a t) : t.kind ≠ .op := by
  rcases h with rfl | ⟨q, rfl⟩ <;> simp

theorem layerArgs_run {as : List (List Nat)} {ts : List LTok} (h : DerivesArgs as ts) : ∀ (fuel : Nat) (f : Feed) (u : List (Except LErr LTok)),
    rest f = ts.map .ok ++ .ok (op 41) :: u → ts.length ≤ fuel → ∃ f', layerArgs fuel f = .done (.ok (as, f')) ∧ rest f' = u := by
  induction h with
  | @one a t ha =>
    intro fuel f u he hfuel
    obtain ⟨fuel, rfl⟩ : ∃ k, fuel = k + 1 := ⟨fuel - 1, by simp at hfuel; omega⟩
    obtain ⟨f1, h1, h2⟩ := need_run he (isArg_match ha)
    obtain ⟨f2, h3, h4⟩ := need_run h2 (types := [opComma, opRBrace]) (.inr (by simp [op, opRBrace]))
    refine ⟨f2, ?_, h4⟩
    rw [layerArgs, h1]
    simp only [bindL]
    rw [isArg_value ha]
    simp only [orPanic]
    rw [h3]
    rfl
  | @cons a t as ts ha _ ih =>
    intro fuel f u he hfuel
    obtain ⟨fuel, rfl⟩ : ∃ k, fuel = k + 1 := ⟨fuel - 1, by simp at hfuel; omega⟩
    obtain ⟨f1, h1, h2⟩ := need_run he (isArg_match ha)
    obtain ⟨f2, h3, h4⟩ := need_run h2 (types := [opComma, opRBrace]) (.inr (by simp [op, opComma]))
    obtain ⟨f3, h5, h6⟩ := ih fuel f2 u h4 (by simp at hfuel; omega)
    refine ⟨f3, ?_, h6⟩
    rw [layerArgs, h1]
    simp only [bindL]
    rw [isArg_value ha]
    simp only [orPanic]
    rw [h3]
    dsimp only
    rw [if_neg (by decide), h5]

theorem layerCommands_run {cs : List LayerCommand} {ts : List LTok} (h : DerivesCommands cs ts) : ∀ (fuel : Nat) (f : Feed)
    (u : List (Except LErr LTok)), rest f = ts.map .ok ++ .ok (op 59) :: u → Lexed (rest f) → ts.length + 1 ≤ fuel →
    ∃ f', layerCommands fuel f = .done (.ok (cs, f')) ∧ rest f' = u := by
  induction h with
  | nil =>
    intro fuel f u he hl hfuel
    obtain ⟨fuel, rfl⟩ : ∃ k, fuel = k + 1 := ⟨fuel - 1, by simp at hfuel; omega⟩
    obtain ⟨f1, h1, h2⟩ := need_run he (types := [Kind.name.text, opSemicolon]) (.inr (by simp [op, opSemicolon]))
    refine ⟨f1, ?_, h2⟩
    rw [layerCommands, h1]
    rfl
  | @cons c ts cs ts' hc _ ih =>
    intro fuel f u he hl hfuel
    obtain ⟨fuel, rfl⟩ : ∃ k, fuel = k + 1 := ⟨fuel - 1, by simp at hfuel; omega⟩
    cases hc with
    | empty n =>
      obtain ⟨f1, h1, h2⟩ := need_run (t := ⟨.name, n⟩) (r := .ok (op 40) :: .ok (op 41) :: (ts'.map .ok ++ .ok (op 59) :: u)) (by rw [he]; simp)
        (types := [Kind.name.text, opSemicolon]) (.inl (by simp))
      obtain ⟨f2, h3, h4⟩ := need_run h2 (types := [opLBrace]) (match_self 40)
      obtain ⟨f3, h5, h6⟩ := fetch_match h4 (types := [opRBrace]) (match_self 41) false
      obtain ⟨f4, h7, h8⟩ := ih fuel f3 u h6 (lexed_suffix hl (by rw [h6, he]; exact ⟨[.ok ⟨.name, n⟩, .ok (op 40), .ok (op 41)], by simp⟩))
        (by simp at hfuel; omega)
      refine ⟨f4, ?_, h8⟩
      rw [layerCommands, h1]
      simp only [bindL]
      rw [if_neg (by decide), h3]
      simp only
      rw [h5]
      simp only [orPanic]
      rw [h7]
    | @args n as ts ha =>
      obtain ⟨f1, h1, h2⟩ := need_run (t := ⟨.name, n⟩) (r := .ok (op 40) :: (ts.map .ok ++ .ok (op 41) :: (ts'.map .ok ++ .ok (op 59) :: u)))
        (by rw [he]; simp) (types := [Kind.name.text, opSemicolon]) (.inl (by simp))
      obtain ⟨f2, h3, h4⟩ := need_run h2 (types := [opLBrace]) (match_self 40)
      obtain ⟨t, r, hr, hk⟩ : ∃ t r, ts = t :: r ∧ t.kind ≠ .op := by
        cases ha with
        | one h => exact ⟨_, _, rfl, isArg_kind h⟩
        | cons h _ => exact ⟨_, _, rfl, isArg_kind h⟩
      have ht : LexTok t := hl t (by rw [he, hr]; simp)
      obtain ⟨-, f3, h5, h6⟩ := fetch_other (t := t) (r := r.map .ok ++ .ok (op 41) :: (ts'.map .ok ++ .ok (op 59) :: u))
        (by rw [h4, hr]; simp) (lexTok_eof ht) (types := [opRBrace]) (not_match_op ht (by simp) (by rintro rfl; exact hk rfl))
      obtain ⟨f4, h7, h8⟩ := layerArgs_run ha fuel f3 _ (by rw [h6, h4]) (by simp at hfuel; omega)
      obtain ⟨f5, h9, h10⟩ := ih fuel f4 u h8 (lexed_suffix hl (by
        rw [h8, he]; exact ⟨.ok ⟨.name, n⟩ :: .ok (op 40) :: (ts.map .ok ++ [.ok (op 41)]), by simp⟩)) (by simp at hfuel; omega)
      refine ⟨f5, ?_, h10⟩
      rw [layerCommands, h1]
      simp only [bindL]
      rw [if_neg (by decide), h3]
      simp only
      rw [h5]
      simp only [orPanic]
      rw [h7]
      simp only
      rw [h9]

theorem layer_run {l : LayerDef} {t : LTok} {ts : List LTok} (h : DerivesLayer l (t :: ts)) {fuel : Nat} {c : Ctx} {f : Feed}
    {u : List (Except LErr LTok)} (he : rest f = ts.map .ok ++ u) (hl : Lexed (rest f)) (hfuel : ts.length ≤ fuel) :
    ∃ f', parseLayerDef fuel t c f = .done (.ok ({ c with layers := c.layers ++ [l] }, f')) ∧ rest f' = u := by
  cases h with
  | @mk n cs ts hc =>
    obtain ⟨f1, h1, h2⟩ := need_run (t := ⟨.name, n⟩) (r := ts.map .ok ++ .ok (op 59) :: u) (by rw [he]; simp) (types := [Kind.name.text]) (.inl (by simp))
    obtain ⟨f2, h3, h4⟩ := layerCommands_run hc fuel f1 u h2 (lexed_suffix hl (by rw [h2, he]; exact ⟨[.ok ⟨.name, n⟩], by simp⟩))
      (by simp at hfuel; omega)
    refine ⟨f2, ?_, h4⟩
    unfold parseLayerDef
    rw [if_neg (by simp [op, opLayer]), h1]
    simp only [bindL]
    rw [h3]

/-! Nodes -/

theorem map_ok_inj {ts ts' : List LTok} {u : List (Except LErr LTok)} (h : ts.map Except.ok ++ u = ts'.map Except.ok ++ u) : ts = ts' :=
  List.map_injective_iff.2 (fun a b (h : (Except.ok a : Except LErr LTok) = .ok b) => by cases h; rfl) (List.append_cancel_right h)

theorem BodyOk.fit {c0 c : Ctx} {items : List BodyItem} (h : BodyOk c0 items c) {es : List Expr} (hf : Fit c0 es) : Fit c es := by
  have hp : c0.tokens <+: c.tokens := by rw [h.tokens]; exact enlistLits_prefix _ _
  refine ⟨fun n hn => usable_prefix hp (hf.1 n hn), ?_⟩
  intro hr m hm
  rw [h.same] at hr
  obtain ⟨t, ht, h1⟩ := hf.2 hr m hm
  exact ⟨t, hp.subset ht, h1⟩

theorem node_run {n : List Nat} {es : List Expr} {ts : List LTok} (hd : Derives .seq ts es) {fuel : Nat} {c0 c : Ctx} {f : Feed}
    {items : List BodyItem} (h : BodyOk c0 items c) (hn : n ∉ items.flatMap BodyItem.defined) {u : List (Except LErr LTok)}
    (he : rest f = .ok (op 61) :: (ts.map .ok ++ .ok (op 59) :: u)) (hl : Lexed (rest f)) (hf : Fit c0 es) (hfuel : 3 * ts.length + 2 ≤ fuel) :
    ∃ c' f', parseNodeDef fuel n c f = .done (.ok (c', f')) ∧ rest f' = u ∧ BodyOk c0 (items ++ [.node n es]) c' := by
  obtain ⟨f1, h1, h2⟩ := need_run he (types := [opEqu]) (match_self 61)
  obtain ⟨⟨l, e1⟩, hk, -⟩ := addNode_names c n true
  have hb : BInv (declareNode c n true).2 := by rw [e1]; exact ⟨h.inv.token, h.inv.literal⟩
  have hf1 : Fit (declareNode c n true).2 es := by
    have := h.fit hf
    rw [e1]
    exact this
  have hl1 : Lexed (rest f1) := lexed_suffix hl (by rw [h2, he]; exact ⟨[.ok (op 61)], by simp⟩)
  obtain ⟨chs, c2, f2, h3, h4⟩ := derives_run hd fuel n (declareNode c n true).2 f1 (op 59) u h2 hk hb hl1 hf1 (by simp [StopTok, op]) hfuel
  have hx := read_exprOk (parseGroup_read fuel n _ f1 chs c2 f2 hk hb hl1 h3) (by rw [h2, h4]) hd
  obtain ⟨f3, h5, h6⟩ := need_run h4 (types := [opSemicolon]) (match_self 59)
  refine ⟨_, f3, ?_, h6, h.node hn hx⟩
  unfold parseNodeDef
  dsimp only
  rw [h1]
  simp only [bindL]
  rw [h3]
  simp only
  rw [h5]

theorem derivesItem_nonempty {i : BodyItem} {ts : List LTok} (h : DerivesItem i ts) : ∃ t us, ts = t :: us ∧ (t.kind = .name ∨ t.kind = .op) := by
  cases h with
  | node n h => exact ⟨_, _, rfl, .inl rfl⟩
  | layer h => cases h with | mk n h => exact ⟨_, _, rfl, .inr rfl⟩

theorem body_run {is : List BodyItem} {ts : List LTok} (h : DerivesBody is ts) : ∀ (fuel : Nat) (t : LTok) (us : List LTok) (c0 c : Ctx) (f : Feed)
    (items : List BodyItem), ts = t :: us → rest f = us.map .ok → BodyOk c0 items c → ((items ++ is).flatMap BodyItem.defined).Nodup →
    (∀ n es, BodyItem.node n es ∈ is → Fit c0 es) → Lexed (ts.map .ok) → 3 * ts.length + 2 ≤ fuel →
    ∃ c', parseBody fuel t c f = .done (.ok c') := by
  induction h with
  | nil => intro fuel t us c0 c f items h; cases h
  | @cons i ts is ts' hi hd ih =>
    intro fuel t us c0 c f items ht he hb hnd hfit hl hfuel
    obtain ⟨fuel, rfl⟩ : ∃ k, fuel = k + 1 := ⟨fuel - 1, by simp at hfuel; omega⟩
    obtain ⟨t1, us1, hts, hk⟩ := derivesItem_nonempty hi
    rw [hts, List.cons_append, List.cons.injEq] at ht
    obtain ⟨rfl, rfl⟩ := ht
    have hlen : ts.length = us1.length + 1 := by rw [hts]; simp
    have hlt : LexTok t1 := hl t1 (by rw [hts]; simp)
    have hl1 : Lexed (rest f) := lexed_suffix hl (by rw [he, hts]; exact ⟨[.ok t1], by simp⟩)
    have step : ∃ c1 f1, (if t1.kind = .op then parseLayerDef fuel t1 c f
        else if ∃ r ∈ c.nodes, r.name = t1.text ∧ r.chunk.isSome then .done (.error .nodeDefined)
        else parseNodeDef fuel t1.text c f) = .done (.ok (c1, f1)) ∧ rest f1 = ts'.map .ok ∧ BodyOk c0 (items ++ [i]) c1 := by
      cases hi with
      | @node n es ts0 hx =>
        rw [List.cons_append, List.cons.injEq] at hts
        obtain ⟨rfl, rfl⟩ := hts
        have hn : n ∉ items.flatMap BodyItem.defined := by
          intro hn
          rw [List.flatMap_append, List.nodup_append] at hnd
          exact hnd.2.2 n hn n (by simp [BodyItem.defined]) rfl
        rw [if_neg (by simp), if_neg (by rw [hb.defined_iff]; exact hn)]
        obtain ⟨c1, f1, h1, h2, h3⟩ := node_run hx (fuel := fuel) hb hn (u := ts'.map .ok) (by rw [he]; simp) hl1 (hfit n es (by simp))
          (by simp at hfuel hlen; omega)
        exact ⟨c1, f1, h1, h2, h3⟩
      | @layer l _ hx =>
        rw [hts] at hx
        have hop : t1.kind = .op := by cases hx; rfl
        rw [if_pos hop]
        obtain ⟨f1, h1, h2⟩ := layer_run hx (fuel := fuel) (c := c) (u := ts'.map .ok) (by rw [he]; simp) hl1 (by simp at hfuel; omega)
        exact ⟨_, f1, h1, h2, hb.layer l⟩
    obtain ⟨c1, f1, h1, h2, h3⟩ := step
    rw [parseBody, if_neg (lexTok_eof hlt), h1]
    simp only [bindL]
    have hnext := ih
    cases hd with
    | nil =>
      obtain ⟨fuel, rfl⟩ : ∃ k, fuel = k + 1 := ⟨fuel - 1, by simp at hfuel; omega⟩
      unfold need
      rw [fetch_nil h2, if_pos (.inl (.inl (by simp)))]
      simp only [orPanic, bindL]
      exact ⟨c1, rfl⟩
    | @cons i' ts2 is' ts3 hi' hd' =>
      obtain ⟨t2, us2, hts2, hk2⟩ := derivesItem_nonempty hi'
      have hm : Match [Kind.name.text, Kind.op.text, Kind.eof.text, bytesOf "-eoi-"] t2 := by
        rcases hk2 with hk2 | hk2 <;> exact .inl (by rw [hk2]; simp)
      obtain ⟨f2, h4, h5⟩ := need_run (t := t2) (r := (us2 ++ ts3).map .ok) (by rw [h2, hts2]; simp) hm
      obtain ⟨c', h6⟩ := ih fuel t2 (us2 ++ ts3) c0 c1 f2 (items ++ [i]) (by rw [hts2]; rfl) h5 h3 (by simpa using hnd)
        (fun n es hn => hfit n es (List.mem_cons_of_mem _ hn)) (lexed_suffix hl (by exact ⟨ts.map .ok, by simp⟩))
        (by simp only [List.length_append] at hfuel ⊢; omega)
      rw [h4]
      exact ⟨c', h6⟩

end Verif.Proof.LangDef
