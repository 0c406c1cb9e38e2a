/-
A written command of the calculator has only one reading.

Reading from left to right is a relation; each of its cases is chosen by the first unread tokens, so it is deterministic; anything written
is read in this way.
-/
import Verif.Spec.Calc

namespace Verif.Proof.CalcUnique

open Verif.Model Verif.Spec.Calc

variable {α : Type}

/-- The tokens do not begin with the sign. -/
def Not (c : Char) (ts : List Token) : Prop := ∀ t us, ts = t :: us → ¬ IsSign c t

mutual

/-- A sum is read; the rest is left. -/
inductive RSum (num : List Nat → Except Nat α) : List Token → Ex α → List Token → Prop
  | pos {ts us e e' rest} : Not '-' ts → RPro num ts e us → LSum num e us e' rest → RSum num ts e' rest
  | neg {t ts us e e' rest} : IsSign '-' t → RPro num ts e us → LSum num (.neg e) us e' rest → RSum num (t :: ts) e' rest

/-- The rest of a sum is read after its first part. -/
inductive LSum (num : List Nat → Except Nat α) : Ex α → List Token → Ex α → List Token → Prop
  | done {e ts} : Not '+' ts → Not '-' ts → LSum num e ts e ts
  | add {a b t ts us e rest} : IsSign '+' t → RPro num ts b us → LSum num (.add a b) us e rest → LSum num a (t :: ts) e rest
  | sub {a b t ts us e rest} : IsSign '-' t → RPro num ts b us → LSum num (.sub a b) us e rest → LSum num a (t :: ts) e rest

/-- A product is read. -/
inductive RPro (num : List Nat → Except Nat α) : List Token → Ex α → List Token → Prop
  | mk {ts us e e' rest} : RPow num ts e us → LPro num e us e' rest → RPro num ts e' rest

/-- The rest of a product is read. -/
inductive LPro (num : List Nat → Except Nat α) : Ex α → List Token → Ex α → List Token → Prop
  | done {e ts} : Not '*' ts → Not '/' ts → LPro num e ts e ts
  | mul {a b t ts us e rest} : IsSign '*' t → RPow num ts b us → LPro num (.mul a b) us e rest → LPro num a (t :: ts) e rest
  | div {a b t ts us e rest} : IsSign '/' t → RPow num ts b us → LPro num (.div a b) us e rest → LPro num a (t :: ts) e rest

/-- A power is read. -/
inductive RPow (num : List Nat → Except Nat α) : List Token → Ex α → List Token → Prop
  | one {ts e rest} : RVal num ts e rest → Not '^' rest → RPow num ts e rest
  | pow {ts a t us b rest} : RVal num ts a (t :: us) → IsSign '^' t → RPow num us b rest → RPow num ts (.pow a b) rest

/-- A value is read. -/
inductive RVal (num : List Nat → Except Nat α) : List Token → Ex α → List Token → Prop
  | num {t v rest} : IsNumber t → num t.content = .ok v → RVal num (t :: rest) (.num v) rest
  | var {t rest} : IsName t → Not '(' rest → RVal num (t :: rest) (.var t.content) rest
  | paren {e l ts r rest} : IsSign '(' l → RSum num ts e (r :: rest) → IsSign ')' r → RVal num (l :: ts) e rest
  | call0 {f l r rest} : IsName f → IsSign '(' l → IsSign ')' r → RVal num (f :: l :: r :: rest) (.call f.content []) rest
  | call {f l ts es r rest e us} : IsName f → IsSign '(' l → Not ')' ts → RSum num ts e us → LArgs num [e] us es (r :: rest) → IsSign ')' r →
      RVal num (f :: l :: ts) (.call f.content es) rest

/-- The rest of a list of expressions is read. -/
inductive LArgs (num : List Nat → Except Nat α) : List (Ex α) → List Token → List (Ex α) → List Token → Prop
  | done {es ts} : Not ',' ts → LArgs num es ts es ts
  | more {es e t ts us es' rest} : IsSign ',' t → RSum num ts e us → LArgs num (es ++ [e]) us es' rest → LArgs num es (t :: ts) es' rest

end

theorem not_of_ne {c d : Char} {t : Token} {ts : List Token} (h : IsSign c t) (hcd : c.toNat ≠ d.toNat) : Not d (t :: ts) := by
  rintro _ _ h1 h2
  cases h1
  exact hcd (by simpa using (h.2.symm.trans h2.2))

theorem sign_ne {c d : Char} {t : Token} (h : IsSign c t) (h' : IsSign d t) : c.toNat = d.toNat := by
  simpa using h.2.symm.trans h'.2

theorem name_not_sign {c : Char} {t : Token} (h : IsName t) (h' : IsSign c t) : False := by
  rcases h'.1 with h1 | h1 <;> rw [IsName, h1] at h <;> cases h

theorem number_not_sign {c : Char} {t : Token} (h : IsNumber t) (h' : IsSign c t) : False := by
  rcases h'.1 with h1 | h1 <;> rw [IsNumber, h1] at h <;> cases h

theorem number_not_name {t : Token} (h : IsNumber t) (h' : IsName t) : False := by
  rw [IsNumber] at h
  rw [IsName, h] at h'
  cases h'

/-- Reading is deterministic. -/
theorem reads_once (num : List Nat → Except Nat α) :
    (∀ {ts e r}, RSum num ts e r → ∀ e' r', RSum num ts e' r' → e = e' ∧ r = r') := by
  intro ts e r h
  refine RSum.rec (motive_1 := fun ts e r _ => ∀ e' r', RSum num ts e' r' → e = e' ∧ r = r')
    (motive_2 := fun a ts e r _ => ∀ e' r', LSum num a ts e' r' → e = e' ∧ r = r')
    (motive_3 := fun ts e r _ => ∀ e' r', RPro num ts e' r' → e = e' ∧ r = r')
    (motive_4 := fun a ts e r _ => ∀ e' r', LPro num a ts e' r' → e = e' ∧ r = r')
    (motive_5 := fun ts e r _ => ∀ e' r', RPow num ts e' r' → e = e' ∧ r = r')
    (motive_6 := fun ts e r _ => ∀ e' r', RVal num ts e' r' → e = e' ∧ r = r')
    (motive_7 := fun a ts e r _ => ∀ e' r', LArgs num a ts e' r' → e = e' ∧ r = r')
    ?_ ?_ ?_ ?_ ?_ ?_ ?_ ?_ ?_ ?_ ?_ ?_ ?_ ?_ ?_ ?_ ?_ ?_ h
  case refine_1 =>
    intro ts us e e' rest hn _ _ ih1 ih2 e'' r'' h
    cases h with
    | pos _ h1 h2 => obtain ⟨rfl, rfl⟩ := ih1 _ _ h1; exact ih2 _ _ h2
    | neg h0 _ _ => exact (hn _ _ rfl h0).elim
  case refine_2 =>
    intro t ts us e e' rest hs _ _ ih1 ih2 e'' r'' h
    cases h with
    | pos hn _ _ => exact (hn _ _ rfl hs).elim
    | neg _ h1 h2 => obtain ⟨rfl, rfl⟩ := ih1 _ _ h1; exact ih2 _ _ h2
  case refine_3 =>
    intro e ts h1 h2 e' r' h
    cases h with
    | done => exact ⟨rfl, rfl⟩
    | add hs => exact (h1 _ _ rfl hs).elim
    | sub hs => exact (h2 _ _ rfl hs).elim
  case refine_4 =>
    intro a b t ts us e rest hs _ _ ih1 ih2 e' r' h
    cases h with
    | done h1 h2 => exact (h1 _ _ rfl hs).elim
    | add _ h1 h2 => obtain ⟨rfl, rfl⟩ := ih1 _ _ h1; exact ih2 _ _ h2
    | sub hs' => exact absurd (sign_ne hs hs') (by decide)
  case refine_5 =>
    intro a b t ts us e rest hs _ _ ih1 ih2 e' r' h
    cases h with
    | done h1 h2 => exact (h2 _ _ rfl hs).elim
    | sub _ h1 h2 => obtain ⟨rfl, rfl⟩ := ih1 _ _ h1; exact ih2 _ _ h2
    | add hs' => exact absurd (sign_ne hs hs') (by decide)
  case refine_6 =>
    intro ts us e e' rest _ _ ih1 ih2 e'' r'' h
    cases h with
    | mk h1 h2 => obtain ⟨rfl, rfl⟩ := ih1 _ _ h1; exact ih2 _ _ h2
  case refine_7 =>
    intro e ts h1 h2 e' r' h
    cases h with
    | done => exact ⟨rfl, rfl⟩
    | mul hs => exact (h1 _ _ rfl hs).elim
    | div hs => exact (h2 _ _ rfl hs).elim
  case refine_8 =>
    intro a b t ts us e rest hs _ _ ih1 ih2 e' r' h
    cases h with
    | done h1 h2 => exact (h1 _ _ rfl hs).elim
    | mul _ h1 h2 => obtain ⟨rfl, rfl⟩ := ih1 _ _ h1; exact ih2 _ _ h2
    | div hs' => exact absurd (sign_ne hs hs') (by decide)
  case refine_9 =>
    intro a b t ts us e rest hs _ _ ih1 ih2 e' r' h
    cases h with
    | done h1 h2 => exact (h2 _ _ rfl hs).elim
    | div _ h1 h2 => obtain ⟨rfl, rfl⟩ := ih1 _ _ h1; exact ih2 _ _ h2
    | mul hs' => exact absurd (sign_ne hs hs') (by decide)
  case refine_10 =>
    intro ts e rest _ hn ih e' r' h
    cases h with
    | one h1 _ => exact ih _ _ h1
    | pow h1 hs _ => obtain ⟨rfl, rfl⟩ := ih _ _ h1; exact (hn _ _ rfl hs).elim
  case refine_11 =>
    intro ts a t us b rest _ hs _ ih1 ih2 e' r' h
    cases h with
    | one h1 hn => obtain ⟨rfl, rfl⟩ := ih1 _ _ h1; exact (hn _ _ rfl hs).elim
    | pow h1 _ h2 =>
      obtain ⟨rfl, h3⟩ := ih1 _ _ h1
      cases h3
      obtain ⟨rfl, rfl⟩ := ih2 _ _ h2
      exact ⟨rfl, rfl⟩
  case refine_12 =>
    intro t v rest hn hv e' r' h
    cases h with
    | num _ h1 => rw [hv] at h1; cases h1; exact ⟨rfl, rfl⟩
    | var h1 => exact (number_not_name hn h1).elim
    | paren h1 => exact (number_not_sign hn h1).elim
    | call0 h1 => exact (number_not_name hn h1).elim
    | call h1 => exact (number_not_name hn h1).elim
  case refine_13 =>
    intro t rest hn hp e' r' h
    cases h with
    | num h1 => exact (number_not_name h1 hn).elim
    | var h1 => exact ⟨rfl, rfl⟩
    | paren h1 => exact (name_not_sign hn h1).elim
    | call0 _ h1 => exact (hp _ _ rfl h1).elim
    | call _ h1 => exact (hp _ _ rfl h1).elim
  case refine_14 =>
    intro e l ts r rest hl _ hr ih e' r' h
    cases h with
    | num h1 => exact (number_not_sign h1 hl).elim
    | var h1 => exact (name_not_sign h1 hl).elim
    | paren _ h1 _ =>
      obtain ⟨rfl, h3⟩ := ih _ _ h1
      cases h3
      exact ⟨rfl, rfl⟩
    | call0 h1 => exact (name_not_sign h1 hl).elim
    | call h1 => exact (name_not_sign h1 hl).elim
  case refine_15 =>
    intro f l r rest hf hl hr e' r' h
    cases h with
    | num h1 => exact (number_not_name h1 hf).elim
    | var _ h1 => exact (h1 _ _ rfl hl).elim
    | paren h1 => exact (name_not_sign hf h1).elim
    | call0 => exact ⟨rfl, rfl⟩
    | call _ _ h1 => exact (h1 _ _ rfl hr).elim
  case refine_16 =>
    intro f l ts es r rest e us hf hl hn _ _ hr ih1 ih2 e' r' h
    cases h with
    | num h1 => exact (number_not_name h1 hf).elim
    | var _ h1 => exact (h1 _ _ rfl hl).elim
    | paren h1 => exact (name_not_sign hf h1).elim
    | call0 _ _ h1 => exact (hn _ _ rfl h1).elim
    | call _ _ _ h1 h2 _ =>
      obtain ⟨rfl, rfl⟩ := ih1 _ _ h1
      obtain ⟨rfl, h3⟩ := ih2 _ _ h2
      cases h3
      exact ⟨rfl, rfl⟩
  case refine_17 =>
    intro es ts hn e' r' h
    cases h with
    | done => exact ⟨rfl, rfl⟩
    | more hs => exact (hn _ _ rfl hs).elim
  case refine_18 =>
    intro es e t ts us es' rest hs _ _ ih1 ih2 e' r' h
    cases h with
    | done hn => exact (hn _ _ rfl hs).elim
    | more _ h1 h2 => obtain ⟨rfl, rfl⟩ := ih1 _ _ h1; exact ih2 _ _ h2

/-- What may follow a value: no opening parenthesis. -/
abbrev AfterVal (ts : List Token) : Prop := Not '(' ts
/-- What may follow a power. -/
abbrev AfterPow (ts : List Token) : Prop := AfterVal ts ∧ Not '^' ts
/-- What may follow a product. -/
abbrev AfterPro (ts : List Token) : Prop := AfterPow ts ∧ Not '*' ts ∧ Not '/' ts
/-- What may follow a sum. -/
abbrev AfterSum (ts : List Token) : Prop := AfterPro ts ∧ Not '+' ts ∧ Not '-' ts

/-- The first token of a value. -/
def Starts (ts : List Token) : Prop := ∃ t us, ts = t :: us ∧ (IsNumber t ∨ IsName t ∨ IsSign '(' t)

theorem starts_not {c : Char} {ts : List Token} (h : Starts ts) (hc : c.toNat ≠ '('.toNat) (rest : List Token) : Not c (ts ++ rest) := by
  obtain ⟨t, us, rfl, h⟩ := h
  intro t' us' h1 h2
  cases h1
  rcases h with h | h | h
  · exact number_not_sign h h2
  · exact name_not_sign h h2
  · exact hc (sign_ne h2 h)

theorem Starts.append {ts : List Token} (h : Starts ts) (us : List Token) : Starts (ts ++ us) := by
  obtain ⟨t, vs, rfl, h⟩ := h
  exact ⟨t, vs ++ us, rfl, h⟩

theorem after_sign {c : Char} {t : Token} (h : IsSign c t) (ts : List Token) (h1 : c.toNat ≠ '('.toNat) : AfterVal (t :: ts) :=
  not_of_ne h h1

/-- Everything that is written can be read. -/
theorem written_read (num : List Nat → Except Nat α) {e : Ex α} {ts : List Token} (h : IsSum num e ts) :
    ∀ rest, AfterPro rest → ∀ e' r, LSum num e rest e' r → RSum num (ts ++ rest) e' r := by
  have h := IsSum.rec
    (motive_1 := fun e ts _ => (Starts ts ∨ ∃ t us, ts = t :: us ∧ IsSign '-' t) ∧
      ∀ rest, AfterPro rest → ∀ e' r, LSum num e rest e' r → RSum num (ts ++ rest) e' r)
    (motive_2 := fun e ts _ => Starts ts ∧ ∀ rest, AfterPow rest → ∀ e' r, LPro num e rest e' r → RPro num (ts ++ rest) e' r)
    (motive_3 := fun e ts _ => Starts ts ∧ ∀ rest, AfterPow rest → RPow num (ts ++ rest) e rest)
    (motive_4 := fun e ts _ => Starts ts ∧ ∀ rest, AfterVal rest → RVal num (ts ++ rest) e rest)
    (motive_5 := fun es ts _ => (Starts ts ∨ ∃ t us, ts = t :: us ∧ IsSign '-' t) ∧
      ∀ rest, AfterSum rest → ∀ es' r, LArgs num es rest es' r → ∃ e us, RSum num (ts ++ rest) e us ∧ LArgs num [e] us es' r)
    ?_ ?_ ?_ ?_ ?_ ?_ ?_ ?_ ?_ ?_ ?_ ?_ ?_ ?_ ?_ ?_ h
  · exact h.2
  -- sums
  · intro e ts _ ih
    refine ⟨.inl ih.1, fun rest hr e' r h => ?_⟩
    exact .pos (starts_not ih.1 (by decide) _) (ih.2 rest hr.1 _ _ (.done hr.2.1 hr.2.2)) h
  · intro e t ts hs _ ih
    refine ⟨.inr ⟨t, ts, rfl, hs⟩, fun rest hr e' r h => ?_⟩
    exact .neg hs (ih.2 rest hr.1 _ _ (.done hr.2.1 hr.2.2)) h
  · intro a b t ts us _ hs _ ih1 ih2
    refine ⟨?_, fun rest hr e' r h => ?_⟩
    · rcases ih1.1 with h | ⟨t', us', rfl, h⟩
      · exact .inl (h.append _)
      · exact .inr ⟨t', _, rfl, h⟩
    · rw [List.append_assoc, List.cons_append]
      refine ih1.2 (t :: (us ++ rest)) ?_ _ _ (.add hs (ih2.2 rest hr.1 _ _ (.done hr.2.1 hr.2.2)) h)
      exact ⟨⟨not_of_ne hs (by decide), not_of_ne hs (by decide)⟩, not_of_ne hs (by decide), not_of_ne hs (by decide)⟩
  · intro a b t ts us _ hs _ ih1 ih2
    refine ⟨?_, fun rest hr e' r h => ?_⟩
    · rcases ih1.1 with h | ⟨t', us', rfl, h⟩
      · exact .inl (h.append _)
      · exact .inr ⟨t', _, rfl, h⟩
    · rw [List.append_assoc, List.cons_append]
      refine ih1.2 (t :: (us ++ rest)) ?_ _ _ (.sub hs (ih2.2 rest hr.1 _ _ (.done hr.2.1 hr.2.2)) h)
      exact ⟨⟨not_of_ne hs (by decide), not_of_ne hs (by decide)⟩, not_of_ne hs (by decide), not_of_ne hs (by decide)⟩
  -- products
  · intro e ts _ ih
    exact ⟨ih.1, fun rest hr e' r h => .mk (ih.2 rest hr) h⟩
  · intro a b t ts us _ hs _ ih1 ih2
    refine ⟨ih1.1.append _, fun rest hr e' r h => ?_⟩
    rw [List.append_assoc, List.cons_append]
    exact ih1.2 (t :: (us ++ rest)) ⟨not_of_ne hs (by decide), not_of_ne hs (by decide)⟩ _ _ (.mul hs (ih2.2 rest hr) h)
  · intro a b t ts us _ hs _ ih1 ih2
    refine ⟨ih1.1.append _, fun rest hr e' r h => ?_⟩
    rw [List.append_assoc, List.cons_append]
    exact ih1.2 (t :: (us ++ rest)) ⟨not_of_ne hs (by decide), not_of_ne hs (by decide)⟩ _ _ (.div hs (ih2.2 rest hr) h)
  -- powers
  · intro e ts _ ih
    exact ⟨ih.1, fun rest hr => .one (ih.2 rest hr.1) hr.2⟩
  · intro a b t ts us _ hs _ ih1 ih2
    refine ⟨ih1.1.append _, fun rest hr => ?_⟩
    rw [List.append_assoc, List.cons_append]
    exact .pow (ih1.2 (t :: (us ++ rest)) (not_of_ne hs (by decide))) hs (ih2.2 rest hr)
  -- values
  · intro t v hn hv
    exact ⟨⟨t, [], rfl, .inl hn⟩, fun rest _ => .num hn hv⟩
  · intro t hn
    exact ⟨⟨t, [], rfl, .inr (.inl hn)⟩, fun rest hr => .var hn hr⟩
  · intro e l ts r hl _ hr ih
    refine ⟨⟨l, ts ++ [r], rfl, .inr (.inr hl)⟩, fun rest _ => ?_⟩
    rw [List.append_assoc, List.cons_append]
    refine .paren hl (ih.2 (r :: rest) ?_ _ _ (.done (not_of_ne hr (by decide)) (not_of_ne hr (by decide)))) hr
    exact ⟨⟨not_of_ne hr (by decide), not_of_ne hr (by decide)⟩, not_of_ne hr (by decide), not_of_ne hr (by decide)⟩
  · intro f l r hf hl hr
    exact ⟨⟨f, [l, r], rfl, .inr (.inl hf)⟩, fun rest _ => .call0 hf hl hr⟩
  · intro f l es ts r hf hl _ hr ih
    refine ⟨⟨f, l :: ts ++ [r], rfl, .inr (.inl hf)⟩, fun rest _ => ?_⟩
    have hn : Not ')' (ts ++ r :: rest) := by
      rcases ih.1 with h | ⟨t', us', rfl, h⟩
      · exact starts_not h (by decide) _
      · exact not_of_ne h (by decide)
    obtain ⟨e, us, h1, h2⟩ := ih.2 (r :: rest) ⟨⟨⟨not_of_ne hr (by decide), not_of_ne hr (by decide)⟩, not_of_ne hr (by decide),
      not_of_ne hr (by decide)⟩, not_of_ne hr (by decide), not_of_ne hr (by decide)⟩ _ _ (.done (not_of_ne hr (by decide)))
    have := RVal.call hf hl hn h1 h2 hr
    simpa using this
  -- arguments
  · intro e ts _ ih
    exact ⟨ih.1, fun rest hr es' r h => ⟨e, rest, ih.2 rest hr.1 _ _ (.done hr.2.1 hr.2.2), h⟩⟩
  · intro es e ts t us _ hs _ ih1 ih2
    refine ⟨?_, fun rest hr es' r h => ?_⟩
    · rcases ih1.1 with h | ⟨t', us', rfl, h⟩
      · exact .inl (h.append _)
      · exact .inr ⟨t', _, rfl, h⟩
    · rw [List.append_assoc, List.cons_append]
      refine ih1.2 (t :: (us ++ rest)) ?_ _ _ (.more hs (ih2.2 rest hr.1 _ _ (.done hr.2.1 hr.2.2)) h)
      exact ⟨⟨⟨not_of_ne hs (by decide), not_of_ne hs (by decide)⟩, not_of_ne hs (by decide), not_of_ne hs (by decide)⟩, not_of_ne hs (by decide),
        not_of_ne hs (by decide)⟩

theorem not_nil (c : Char) : Not c [] := fun _ _ h => by cases h

theorem after_nil : AfterSum [] := ⟨⟨⟨not_nil _, not_nil _⟩, not_nil _, not_nil _⟩, not_nil _, not_nil _⟩

theorem after_eq {q : Token} (hs : IsSign '=' q) (ts : List Token) : AfterSum (q :: ts) :=
  ⟨⟨⟨not_of_ne hs (by decide), not_of_ne hs (by decide)⟩, not_of_ne hs (by decide), not_of_ne hs (by decide)⟩, not_of_ne hs (by decide),
    not_of_ne hs (by decide)⟩

/-- A sum followed by something else is read. -/
theorem sum_read (num : List Nat → Except Nat α) {e : Ex α} {ts : List Token} (h : IsSum num e ts) {rest : List Token} (hr : AfterSum rest) :
    RSum num (ts ++ rest) e rest := written_read num h rest hr.1 _ _ (.done hr.2.1 hr.2.2)

/-- The same tokens are one sum. -/
theorem sum_unique {num : List Nat → Except Nat α} {e e' : Ex α} {ts ts' r r' : List Token} (h : IsSum num e ts) (h' : IsSum num e' ts')
    (hr : AfterSum r) (hr' : AfterSum r') (heq : ts ++ r = ts' ++ r') : e = e' ∧ r = r' :=
  reads_once num (sum_read num h hr) _ _ (heq ▸ sum_read num h' hr')

/-- A header of a definition looks like a call. -/
theorem names_sums {num : List Nat → Except Nat α} {ns : List (List Nat)} {ts : List Token} (h : AreNames ns ts) : AreSums num (ns.map .var) ts := by
  induction h with
  | one hn => exact .one (.one (.one (.one (.var hn))))
  | more _ hs hn ih =>
    rw [List.map_append]
    exact .more ih hs (.one (.one (.one (.var hn))))

theorem var_sum {num : List Nat → Except Nat α} {x : Token} (h : IsName x) : IsSum num (.var x.content) [x] := .one (.one (.one (.var h)))

theorem map_var {ns ns' : List (List Nat)} (h : ns.map (Ex.var (α := α)) = ns'.map .var) : ns = ns' :=
  List.map_injective_iff.mpr (fun _ _ h => by cases h; rfl) h

theorem cmd_headed {num : List Nat → Except Nat α} {cmd : Cmd α} {ts : List Token} (h : IsCmd num cmd ts) :
    (∃ e, cmd = .value e ∧ IsSum num e ts) ∨
    ∃ head e us q vs, ts = us ++ q :: vs ∧ IsSum num head us ∧ IsSign '=' q ∧ IsSum num e vs ∧
      ((∃ x, cmd = .assign x e ∧ head = .var x) ∨ ∃ f ns, cmd = .define f ns e ∧ head = .call f (ns.map .var)) := by
  cases h with
  | value h => exact .inl ⟨_, rfl, h⟩
  | @assign x q e ts hx hq h => exact .inr ⟨_, _, [x], q, ts, rfl, var_sum hx, hq, h, .inl ⟨_, rfl, rfl⟩⟩
  | @define0 f l r q e ts hf hl hr hq h =>
    exact .inr ⟨_, _, [f, l, r], q, ts, rfl, .one (.one (.one (.call0 hf hl hr))), hq, h, .inr ⟨_, [], rfl, rfl⟩⟩
  | @define f l ns us r q e ts hf hl hns hr hq h =>
    refine .inr ⟨_, _, f :: l :: us ++ [r], q, ts, by simp, .one (.one (.one (.call hf hl (names_sums hns) hr))), hq, h, .inr ⟨_, ns, rfl, rfl⟩⟩

/-- The same tokens are one command. -/
theorem cmd_unique {num : List Nat → Except Nat α} {cmd cmd' : Cmd α} {ts : List Token} (h : IsCmd num cmd ts) (h' : IsCmd num cmd' ts) :
    cmd = cmd' := by
  rcases cmd_headed h with ⟨e, rfl, h1⟩ | ⟨hd, e, us, q, vs, rfl, h1, hq, h2, h3⟩ <;>
    rcases cmd_headed h' with ⟨e', rfl, h1'⟩ | ⟨hd', e', us', q', vs', h0, h1', hq', h2', h3'⟩
  · rw [(sum_unique h1 h1' after_nil after_nil rfl).1]
  · have := (sum_unique h1 h1' after_nil (after_eq hq' vs') (by rw [List.append_nil, h0])).2
    cases this
  · have := (sum_unique h1 h1' (after_eq hq vs) after_nil (by rw [List.append_nil])).2
    cases this
  · obtain ⟨rfl, h4⟩ := sum_unique h1 h1' (after_eq hq vs) (after_eq hq' vs') h0
    cases h4
    obtain ⟨rfl, -⟩ := sum_unique h2 h2' after_nil after_nil rfl
    rcases h3 with ⟨x, rfl, rfl⟩ | ⟨f, ns, rfl, rfl⟩ <;> rcases h3' with ⟨x', rfl, h5⟩ | ⟨f', ns', rfl, h5⟩
    · cases h5; rfl
    · cases h5
    · cases h5
    · rw [Ex.call.injEq] at h5
      rw [h5.1, map_var h5.2]

end Verif.Proof.CalcUnique
