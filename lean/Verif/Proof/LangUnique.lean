/-
The documented syntax of grammar descriptions is unambiguous.
-/
import Verif.Proof.LangHead

namespace Verif.Proof.LangDef

open Verif.Model Verif.Model.LangDef Verif.Spec.LangDef

/-- What cannot follow a part of an expression. -/
def Stop : Role → List LTok → Prop
  | .var, _ => True
  | .alts, u => u.head? ≠ some (op 124)
  | .item, u => u.head? ≠ some (op 124)
  | .seq, u => u.head? ≠ some (op 124) ∧ u.head? ≠ some (op 44)

theorem isString_kind {n : List Nat} {t : LTok} (h : IsString n t) : t.kind = .string := by
  obtain ⟨q, rfl⟩ := h
  rfl

theorem isString_inj {n m : List Nat} {t : LTok} (h : IsString n t) (h' : IsString m t) : n = m := by
  obtain ⟨q, rfl⟩ := h
  obtain ⟨p, h⟩ := h'
  simp only [LTok.mk.injEq, List.cons_append, List.cons.injEq, true_and] at h
  exact (List.append_inj' h.2 rfl).1

theorem derives_unique {r : Role} {ts : List LTok} {es : List Expr} (h : Derives r ts es) : ∀ {ts' es' u u'}, Derives r ts' es' →
    ts ++ u = ts' ++ u' → Stop r u → Stop r u' → ts = ts' ∧ es = es' := by
  induction h with
  | node n =>
    intro ts' es' u u' h' he _ _
    cases h' with
    | node m => simp_all
    | literal m t hs =>
      have := isString_kind hs
      simp only [List.cons_append, List.nil_append, List.cons.injEq] at he
      rw [← he.1] at this
      cases this
    | _ => simp_all [typeTok, op]
  | eoi =>
    intro ts' es' u u' h' he _ _
    cases h' with
    | eoi => simp_all
    | literal m t hs =>
      have := isString_kind hs
      simp_all [typeTok, op]
      rw [← he.1] at this
      cases this
    | token m hm => simp_all [typeTok]
    | _ => simp_all [typeTok, op]
  | token n hn =>
    intro ts' es' u u' h' he _ _
    cases h' with
    | token m hm => simp_all [typeTok]
    | literal m t hs =>
      have := isString_kind hs
      simp_all [typeTok, op]
      rw [← he.1] at this
      cases this
    | _ => simp_all [typeTok, op]
  | literal n t hs =>
    intro ts' es' u u' h' he _ _
    have hk := isString_kind hs
    cases h' with
    | literal m t' hs' =>
      simp only [List.cons_append, List.nil_append, List.cons.injEq] at he
      rw [← he.1] at hs' ⊢
      rw [isString_inj hs hs']
      exact ⟨rfl, rfl⟩
    | _ =>
      simp only [List.cons_append, List.nil_append, List.cons.injEq, typeTok, op] at he
      rw [he.1] at hk
      cases hk
  | round h ih | square h ih | curly h ih =>
    intro ts' es' u u' h' he _ _
    cases h' with
    | literal m t' hs' =>
      have := isString_kind hs'
      simp only [List.cons_append, List.nil_append, List.cons.injEq, op] at he
      rw [← he.1] at this
      cases this
    | round h2 | square h2 | curly h2 =>
      first
      | (simp only [List.cons_append, List.cons.injEq, List.append_assoc, List.nil_append, true_and] at he
         obtain ⟨rfl, rfl⟩ := ih h2 he (by simp [Stop, op]) (by simp [Stop, op])
         exact ⟨rfl, rfl⟩)
      | (have h0 := (List.cons.inj he).1
         simp [op] at h0)
    | _ =>
      simp only [List.cons_append, List.nil_append, List.cons.injEq, typeTok, op, LTok.mk.injEq] at he
      exact absurd he.1 (by simp)
  | one h ih =>
    intro ts' es' u u' h' he hs hs'
    cases h' with
    | one h2 => exact ih h2 he trivial trivial
    | more h2 h3 =>
      rw [List.append_assoc] at he
      obtain ⟨rfl, -⟩ := ih h2 he trivial trivial
      have := List.append_cancel_left he
      rw [this] at hs
      exact absurd rfl hs
  | more h1 h2 ih1 ih2 =>
    intro ts' es' u u' h' he hs hs'
    cases h' with
    | one h3 =>
      rw [List.append_assoc] at he
      obtain ⟨rfl, -⟩ := ih1 h3 he trivial trivial
      have := List.append_cancel_left he
      rw [← this] at hs'
      exact absurd rfl hs'
    | more h3 h4 =>
      rw [List.append_assoc, List.append_assoc] at he
      obtain ⟨rfl, e1⟩ := ih1 h3 he trivial trivial
      have := List.append_cancel_left he
      simp only [List.cons_append, List.cons.injEq, true_and] at this
      obtain ⟨rfl, rfl⟩ := ih2 h4 this hs hs'
      cases e1
      exact ⟨rfl, rfl⟩
  | single h ih =>
    intro ts' es' u u' h' he hs hs'
    cases h' with
    | single h2 => exact ih h2 he hs hs'
    | variants h2 hl =>
      obtain ⟨-, rfl⟩ := ih h2 he hs hs'
      simp at hl
  | variants h hl ih =>
    intro ts' es' u u' h' he hs hs'
    cases h' with
    | single h2 =>
      obtain ⟨-, rfl⟩ := ih h2 he hs hs'
      simp at hl
    | variants h2 hl2 =>
      obtain ⟨rfl, rfl⟩ := ih h2 he hs hs'
      exact ⟨rfl, rfl⟩
  | last h ih =>
    intro ts' es' u u' h' he hs hs'
    cases h' with
    | last h2 => exact ih h2 he hs.1 hs'.1
    | cons h2 h3 =>
      rw [List.append_assoc] at he
      obtain ⟨rfl, -⟩ := ih h2 he hs.1 (by simp [Stop, op])
      have := List.append_cancel_left he
      rw [this] at hs
      exact absurd rfl hs.2
  | cons h1 h2 ih1 ih2 =>
    intro ts' es' u u' h' he hs hs'
    cases h' with
    | last h3 =>
      rw [List.append_assoc] at he
      obtain ⟨rfl, -⟩ := ih1 h3 he (by simp [Stop, op]) hs'.1
      have := List.append_cancel_left he
      rw [← this] at hs'
      exact absurd rfl hs'.2
    | cons h3 h4 =>
      rw [List.append_assoc, List.append_assoc] at he
      obtain ⟨rfl, e1⟩ := ih1 h3 he (by simp [Stop, op]) (by simp [Stop, op])
      have := List.append_cancel_left he
      simp only [List.cons_append, List.cons.injEq, true_and] at this
      obtain ⟨rfl, rfl⟩ := ih2 h4 this hs hs'
      cases e1
      exact ⟨rfl, rfl⟩

theorem isArg_inj {a b : List Nat} {t : LTok} (h : IsArg a t) (h' : IsArg b t) : a = b := by
  rcases h with rfl | h <;> rcases h' with h' | h'
  · simpa using h'
  · exact absurd (isString_kind h') (by simp)
  · rw [h'] at h; exact absurd (isString_kind h) (by simp)
  · exact isString_inj h h'

theorem isArg_op {a : List Nat} {b : Nat} (h : IsArg a (op b)) : False := by
  rcases h with h | h
  · cases h
  · exact absurd (isString_kind h) (by simp [op])

theorem args_unique {as : List (List Nat)} {ts : List LTok} (h : DerivesArgs as ts) : ∀ {as' ts' u u'}, DerivesArgs as' ts' →
    ts ++ op 41 :: u = ts' ++ op 41 :: u' → ts = ts' ∧ as = as' := by
  induction h with
  | one ha =>
    intro as' ts' u u' h' he
    cases h' with
    | one ha' =>
      simp only [List.cons_append, List.nil_append, List.cons.injEq] at he
      rw [← he.1] at ha' ⊢
      rw [isArg_inj ha ha']
      exact ⟨rfl, rfl⟩
    | cons ha' h2 => simp [op] at he
  | cons ha h1 ih =>
    intro as' ts' u u' h' he
    cases h' with
    | one ha' => simp [op] at he
    | cons ha' h2 =>
      simp only [List.cons_append, List.cons.injEq, true_and] at he
      rw [← he.1] at ha' ⊢
      obtain ⟨rfl, rfl⟩ := ih h2 he.2
      rw [isArg_inj ha ha']
      exact ⟨rfl, rfl⟩

theorem args_head {as : List (List Nat)} {ts : List LTok} (h : DerivesArgs as ts) : ∃ a t us, ts = t :: us ∧ IsArg a t := by
  cases h with
  | one ha => exact ⟨_, _, _, rfl, ha⟩
  | cons ha _ => exact ⟨_, _, _, rfl, ha⟩

theorem command_unique {c c' : LayerCommand} {ts ts' u u' : List LTok} (h : DerivesCommand c ts) (h' : DerivesCommand c' ts')
    (he : ts ++ u = ts' ++ u') : ts = ts' ∧ c = c' := by
  cases h with
  | empty n =>
    cases h' with
    | empty m => simp_all
    | args m ha =>
      obtain ⟨a, t, us, rfl, hat⟩ := args_head ha
      simp only [List.cons_append, List.cons.injEq, true_and] at he
      rw [← he.2.1] at hat
      exact (isArg_op hat).elim
  | args n ha =>
    cases h' with
    | empty m =>
      obtain ⟨a, t, us, rfl, hat⟩ := args_head ha
      simp only [List.cons_append, List.cons.injEq, true_and] at he
      rw [he.2.1] at hat
      exact (isArg_op hat).elim
    | args m ha' =>
      simp only [List.cons_append, List.append_assoc, List.nil_append, List.cons.injEq, true_and, LTok.mk.injEq] at he
      obtain ⟨rfl, rfl⟩ := args_unique ha ha' he.2
      rw [he.1]
      exact ⟨rfl, rfl⟩

theorem command_head {c : LayerCommand} {ts : List LTok} (h : DerivesCommand c ts) : ∃ t us, ts = t :: us ∧ t.kind = .name := by
  cases h with
  | empty n => exact ⟨_, _, rfl, rfl⟩
  | args n _ => exact ⟨_, _, rfl, rfl⟩

theorem commands_unique {cs : List LayerCommand} {ts : List LTok} (h : DerivesCommands cs ts) : ∀ {cs' ts' u u'}, DerivesCommands cs' ts' →
    ts ++ op 59 :: u = ts' ++ op 59 :: u' → ts = ts' ∧ cs = cs' := by
  induction h with
  | nil =>
    intro cs' ts' u u' h' he
    cases h' with
    | nil => exact ⟨rfl, rfl⟩
    | cons h1 h2 =>
      obtain ⟨t, us, rfl, hk⟩ := command_head h1
      simp only [List.nil_append, List.cons_append, List.cons.injEq] at he
      rw [← he.1] at hk
      cases hk
  | cons h1 h2 ih =>
    intro cs' ts' u u' h' he
    cases h' with
    | nil =>
      obtain ⟨t, us, rfl, hk⟩ := command_head h1
      simp only [List.nil_append, List.cons_append, List.cons.injEq] at he
      rw [he.1] at hk
      cases hk
    | cons h3 h4 =>
      rw [List.append_assoc, List.append_assoc] at he
      obtain ⟨rfl, rfl⟩ := command_unique h1 h3 he
      obtain ⟨rfl, rfl⟩ := ih h4 (List.append_cancel_left he)
      exact ⟨rfl, rfl⟩

theorem layer_unique {l l' : LayerDef} {ts ts' u u' : List LTok} (h : DerivesLayer l ts) (h' : DerivesLayer l' ts')
    (he : ts ++ u = ts' ++ u') : ts = ts' ∧ l = l' := by
  cases h with
  | mk n hc =>
    cases h' with
    | mk m hc' =>
      simp only [List.cons_append, List.append_assoc, List.nil_append, List.cons.injEq, true_and, LTok.mk.injEq] at he
      obtain ⟨rfl, rfl⟩ := commands_unique hc hc' he.2
      rw [he.1]
      exact ⟨rfl, rfl⟩

theorem layer_head {l : LayerDef} {ts : List LTok} (h : DerivesLayer l ts) : ∃ us, ts = op 64 :: us := by
  cases h with
  | mk n _ => exact ⟨_, rfl⟩

theorem item_unique {i i' : BodyItem} {ts ts' u u' : List LTok} (h : DerivesItem i ts) (h' : DerivesItem i' ts')
    (he : ts ++ u = ts' ++ u') : ts = ts' ∧ i = i' := by
  cases h with
  | node n hd =>
    cases h' with
    | node m hd' =>
      simp only [List.cons_append, List.append_assoc, List.nil_append, List.cons.injEq, true_and, LTok.mk.injEq] at he
      obtain ⟨rfl, rfl⟩ := derives_unique hd hd' he.2 (by simp [Stop, op]) (by simp [Stop, op])
      rw [he.1]
      exact ⟨rfl, rfl⟩
    | layer hl =>
      obtain ⟨us, rfl⟩ := layer_head hl
      simp [op] at he
  | layer hl =>
    cases h' with
    | node m hd' =>
      obtain ⟨us, rfl⟩ := layer_head hl
      simp [op] at he
    | layer hl' =>
      obtain ⟨rfl, rfl⟩ := layer_unique hl hl' he
      exact ⟨rfl, rfl⟩

theorem item_ne_nil {i : BodyItem} {ts : List LTok} (h : DerivesItem i ts) : ts ≠ [] := by
  cases h with
  | node n _ => simp
  | layer hl => obtain ⟨us, rfl⟩ := layer_head hl; simp

theorem body_unique {is : List BodyItem} {ts : List LTok} (h : DerivesBody is ts) : ∀ {is'}, DerivesBody is' ts → is = is' := by
  induction h with
  | nil =>
    intro is' h'
    generalize he : ([] : List LTok) = ts at h'
    cases h' with
    | nil => rfl
    | cons h1 h2 => exact absurd (List.append_eq_nil_iff.1 he.symm).1 (item_ne_nil h1)
  | @cons i ts is ts2 h1 h2 ih =>
    intro is' h'
    generalize he : ts ++ ts2 = us at h'
    cases h' with
    | nil => exact absurd (List.append_eq_nil_iff.1 he).1 (item_ne_nil h1)
    | cons h3 h4 =>
      obtain ⟨rfl, rfl⟩ := item_unique h1 h3 he
      have := List.append_cancel_left he
      subst this
      rw [ih h4]

theorem each_unique {α : Type} {R : α → LTok → Prop} (hf : ∀ a b t, R a t → R b t → a = b) (hop : ∀ a, ¬ R a (op 59)) {as : List α} {ts : List LTok}
    (h : EachTok R as ts) : ∀ {as' ts' u u'}, EachTok R as' ts' → ts ++ op 59 :: u = ts' ++ op 59 :: u' → ts = ts' ∧ as = as' := by
  induction h with
  | nil =>
    intro as' ts' u u' h' he
    cases h' with
    | nil => exact ⟨rfl, rfl⟩
    | cons h1 h2 =>
      simp only [List.nil_append, List.cons_append, List.cons.injEq] at he
      rw [← he.1] at h1
      exact (hop _ h1).elim
  | cons h1 h2 ih =>
    intro as' ts' u u' h' he
    cases h' with
    | nil =>
      simp only [List.nil_append, List.cons_append, List.cons.injEq] at he
      rw [he.1] at h1
      exact (hop _ h1).elim
    | cons h3 h4 =>
      simp only [List.cons_append, List.cons.injEq] at he
      rw [← he.1] at h3 ⊢
      obtain ⟨rfl, rfl⟩ := ih h4 he.2
      rw [hf _ _ _ h1 h3]
      exact ⟨rfl, rfl⟩

theorem type_unique {ns ns' : List (List Nat)} {ts ts' u u' : List LTok} (h : EachTok (fun n t => t = typeTok n) ns ts)
    (h' : EachTok (fun n t => t = typeTok n) ns' ts') (he : ts ++ op 59 :: u = ts' ++ op 59 :: u') : ts = ts' ∧ ns = ns' :=
  each_unique (by rintro a b t rfl h; simpa [typeTok] using h) (by intro a h; cases h) h h' he

theorem string_unique {ns ns' : List (List Nat)} {ts ts' u u' : List LTok} (h : EachTok IsString ns ts)
    (h' : EachTok IsString ns' ts') (he : ts ++ op 59 :: u = ts' ++ op 59 :: u') : ts = ts' ∧ ns = ns' :=
  each_unique (R := IsString) (fun _ _ _ => isString_inj) (fun a h => absurd (isString_kind h) (by simp [op])) h h' he

theorem litArg_unique {ns ns' : List LitArg} {ts ts' u u' : List LTok} (h : EachTok IsLitArg ns ts)
    (h' : EachTok IsLitArg ns' ts') (he : ts ++ op 59 :: u = ts' ++ op 59 :: u') : ts = ts' ∧ ns = ns' := by
  refine each_unique ?_ ?_ h h' he
  · intro a b t ha hb
    cases a with
    | type n =>
      cases b with
      | type m =>
        have ha : t = typeTok n := ha
        have hb : t = typeTok m := hb
        rw [ha] at hb
        simp only [typeTok, LTok.mk.injEq, List.cons.injEq, true_and] at hb
        rw [hb]
      | literal m =>
        have ha : t = typeTok n := ha
        have hb := isString_kind hb
        rw [ha] at hb
        cases hb
    | literal n =>
      cases b with
      | type m =>
        have hb : t = typeTok m := hb
        have ha := isString_kind ha
        rw [hb] at ha
        cases ha
      | literal m => rw [isString_inj ha hb]
  · intro a h
    cases a with
    | type n => cases h
    | literal n => exact absurd (isString_kind h) (by simp [op])

theorem part_unique {ns ns' : List Part} {ts ts' u u' : List LTok} (h : EachTok IsPart ns ts)
    (h' : EachTok IsPart ns' ts') (he : ts ++ op 59 :: u = ts' ++ op 59 :: u') : ts = ts' ∧ ns = ns' := by
  refine each_unique ?_ ?_ h h' he
  · intro a b t ha hb
    cases a with
    | text n =>
      have ha : t = ⟨.regexp, 47 :: n ++ [47]⟩ := ha
      cases b with
      | text m =>
        have hb : t = ⟨.regexp, 47 :: m ++ [47]⟩ := hb
        rw [ha] at hb
        simp only [LTok.mk.injEq, true_and, List.cons_append, List.cons.injEq] at hb
        rw [(List.append_inj' hb rfl).1]
      | name m =>
        have hb : t = ⟨.name, m⟩ := hb
        rw [ha] at hb
        cases hb
    | name n =>
      have ha : t = ⟨.name, n⟩ := ha
      cases b with
      | text m =>
        have hb : t = ⟨.regexp, 47 :: m ++ [47]⟩ := hb
        rw [ha] at hb
        cases hb
      | name m =>
        have hb : t = ⟨.name, m⟩ := hb
        rw [ha] at hb
        cases hb
        rfl
  · intro a h
    cases a <;> cases h

theorem word_inj {d d' : Dir} (h : d.word = d'.word) : d = d' := by
  cases d <;> cases d' <;> first | rfl | (revert h; decide +kernel)

theorem word_group (d : Dir) : d.word ≠ bytesOf "!group" := by cases d <;> decide +kernel
theorem word_reserved (d : Dir) : d.word ≠ bytesOf "!reserved" := by cases d <;> decide +kernel
theorem word_literal (d : Dir) : d.word ≠ bytesOf "!literal" := by cases d <;> decide +kernel
theorem group_reserved : bytesOf "!group" ≠ bytesOf "!reserved" := by decide +kernel
theorem group_literal : bytesOf "!group" ≠ bytesOf "!literal" := by decide +kernel
theorem reserved_literal : bytesOf "!reserved" ≠ bytesOf "!literal" := by decide +kernel

theorem head_start {i : HeadItem} {ts : List LTok} (h : DerivesHead i ts) : ∃ t us, ts = t :: us ∧ t.kind ≠ .name := by
  cases h with
  | layer hl => obtain ⟨us, rfl⟩ := layer_head hl; exact ⟨_, _, rfl, by simp [op]⟩
  | _ => exact ⟨_, _, rfl, by simp [typeTok]⟩

theorem head_unique {i i' : HeadItem} {ts ts' u u' : List LTok} (h : DerivesHead i ts) (h' : DerivesHead i' ts')
    (he : ts ++ u = ts' ++ u') : ts = ts' ∧ i = i' := by
  cases h with
  | flags d ha =>
    cases h' with
    | flags d' hb =>
      simp only [List.cons_append, List.append_assoc, List.nil_append, List.cons.injEq, true_and, LTok.mk.injEq] at he
      obtain ⟨rfl, rfl⟩ := type_unique ha hb he.2
      rw [word_inj he.1]
      exact ⟨rfl, rfl⟩
    | group hb => simp [word_group] at he
    | reserved hb => simp [word_reserved] at he
    | literal hb => simp [word_literal] at he
    | layer hl => obtain ⟨us, rfl⟩ := layer_head hl; simp [op] at he
    | template n _ _ => simp at he
    | token n _ _ => simp [typeTok] at he
  | group ha =>
    cases h' with
    | flags d' hb => simp [(word_group _).symm] at he
    | group hb =>
      simp only [List.cons_append, List.append_assoc, List.nil_append, List.cons.injEq, true_and] at he
      obtain ⟨rfl, rfl⟩ := type_unique ha hb he
      exact ⟨rfl, rfl⟩
    | reserved hb => simp [group_reserved] at he
    | literal hb => simp [group_literal] at he
    | layer hl => obtain ⟨us, rfl⟩ := layer_head hl; simp [op] at he
    | template n _ _ => simp at he
    | token n _ _ => simp [typeTok] at he
  | reserved ha =>
    cases h' with
    | flags d' hb => simp [(word_reserved _).symm] at he
    | group hb => simp [group_reserved.symm] at he
    | reserved hb =>
      simp only [List.cons_append, List.append_assoc, List.nil_append, List.cons.injEq, true_and] at he
      obtain ⟨rfl, rfl⟩ := string_unique ha hb he
      exact ⟨rfl, rfl⟩
    | literal hb => simp [reserved_literal] at he
    | layer hl => obtain ⟨us, rfl⟩ := layer_head hl; simp [op] at he
    | template n _ _ => simp at he
    | token n _ _ => simp [typeTok] at he
  | literal ha =>
    cases h' with
    | flags d' hb => simp [(word_literal _).symm] at he
    | group hb => simp [group_literal.symm] at he
    | reserved hb => simp [reserved_literal.symm] at he
    | literal hb =>
      simp only [List.cons_append, List.append_assoc, List.nil_append, List.cons.injEq, true_and] at he
      obtain ⟨rfl, rfl⟩ := litArg_unique ha hb he
      exact ⟨rfl, rfl⟩
    | layer hl => obtain ⟨us, rfl⟩ := layer_head hl; simp [op] at he
    | template n _ _ => simp at he
    | token n _ _ => simp [typeTok] at he
  | layer hl =>
    cases h' with
    | layer hl' =>
      obtain ⟨rfl, rfl⟩ := layer_unique hl hl' he
      exact ⟨rfl, rfl⟩
    | _ => obtain ⟨us, rfl⟩ := layer_head hl; simp [op, typeTok] at he
  | template n hne ha =>
    cases h' with
    | template m hne' hb =>
      simp only [List.cons_append, List.append_assoc, List.nil_append, List.cons.injEq, true_and, LTok.mk.injEq] at he
      obtain ⟨rfl, rfl⟩ := part_unique ha hb he.2
      rw [he.1]
      exact ⟨rfl, rfl⟩
    | layer hl => obtain ⟨us, rfl⟩ := layer_head hl; simp [op] at he
    | _ => simp [typeTok] at he
  | token n hn hne ha =>
    cases h' with
    | token m hn' hne' hb =>
      simp only [List.cons_append, List.append_assoc, List.nil_append, List.cons.injEq, true_and, typeTok, LTok.mk.injEq] at he
      obtain ⟨rfl, rfl⟩ := part_unique ha hb he.2
      rw [he.1]
      exact ⟨rfl, rfl⟩
    | layer hl => obtain ⟨us, rfl⟩ := layer_head hl; simp [op, typeTok] at he
    | _ => simp [typeTok] at he

theorem heads_unique {is : List HeadItem} {ts : List LTok} (h : DerivesHeads is ts) : ∀ {is' ts' t t' u u'}, DerivesHeads is' ts' →
    ts ++ t :: u = ts' ++ t' :: u' → t.kind = .name → t'.kind = .name → ts = ts' ∧ is = is' := by
  induction h with
  | nil =>
    intro is' ts' t t' u u' h' he hk hk'
    cases h' with
    | nil => exact ⟨rfl, rfl⟩
    | cons h1 h2 =>
      obtain ⟨s, us, rfl, hs⟩ := head_start h1
      simp only [List.nil_append, List.cons_append, List.cons.injEq] at he
      rw [← he.1] at hs
      exact absurd hk hs
  | cons h1 h2 ih =>
    intro is' ts' t t' u u' h' he hk hk'
    cases h' with
    | nil =>
      obtain ⟨s, us, rfl, hs⟩ := head_start h1
      simp only [List.nil_append, List.cons_append, List.cons.injEq] at he
      rw [he.1] at hs
      exact absurd hk' hs
    | cons h3 h4 =>
      rw [List.append_assoc, List.append_assoc] at he
      obtain ⟨rfl, rfl⟩ := head_unique h1 h3 he
      obtain ⟨rfl, rfl⟩ := ih h4 (List.append_cancel_left he) hk hk'
      exact ⟨rfl, rfl⟩

end Verif.Proof.LangDef
