/-
Accepted grammar descriptions.
-/
import Verif.Proof.LangRead
import Verif.Proof.LangUnique
import Verif.Spec.LangRead

namespace Verif.Proof.LangDef

open Verif.Model Verif.Model.LangDef Verif.Spec.LangDef

theorem enlistLits_mem : ∀ (ms : List (List Nat)) (ts : List GToken) (m : List Nat), m ∈ ms →
    ∃ t ∈ enlistLits ts ms, t.flags.literal = true ∧ t.name = m
  | [], _, _, h => by cases h
  | x :: ms, ts, m, h => by
    rw [enlistLits]
    rcases List.mem_cons.1 h with rfl | h
    · have hp : ∀ (l : List (List Nat)) (ts : List GToken) (t : GToken), t ∈ ts → t ∈ enlistLits ts l := by
        intro l
        induction l with
        | nil => intro ts t h; exact h
        | cons x l ih =>
          intro ts t h
          rw [enlistLits]
          refine ih _ t ?_
          split
          · exact h
          · exact List.mem_append_left _ h
      split
      · next hx =>
        obtain ⟨t, ht, h1⟩ := hx
        exact ⟨t, hp ms _ t ht, h1⟩
      · exact ⟨_, hp ms _ _ (List.mem_append_right _ (List.mem_singleton.2 rfl)), rfl, rfl⟩
    · exact enlistLits_mem ms _ m h

theorem enlistDecl_sub : ∀ (ms l : List (List Nat × Bool)) (x : List Nat × Bool), x ∈ enlistDecl l ms → x ∈ l ∨ x ∈ ms
  | [], _, _, h => .inl h
  | m :: ms, l, x, h => by
    rw [enlistDecl] at h
    rcases enlistDecl_sub ms _ x h with h | h
    · split at h
      · exact .inl h
      · rcases List.mem_append.1 h with h | h
        · exact .inl h
        · exact .inr (by simp_all)
    · exact .inr (by simp [h])

theorem headTable_type {head : List HeadItem} {D : List (List Nat × List Nat)} {t : GToken} (h : t ∈ headTable head D) (hl : t.flags.literal = false) :
    (t.name ∈ D.map Prod.fst ∨ t.name ∈ undefinedTypes head D) ∧ t.flags.side = listed head .side t.name ∧ t.flags.error = listed head .error t.name := by
  unfold headTable at h
  rcases List.mem_append.1 h with h | h
  · rcases List.mem_append.1 h with h | h
    · obtain ⟨d, hd, rfl⟩ := List.mem_map.1 h
      exact ⟨.inl (List.mem_map.2 ⟨d, hd, rfl⟩), rfl, rfl⟩
    · obtain ⟨n, hn, rfl⟩ := List.mem_map.1 h
      exact ⟨.inr hn, rfl, rfl⟩
  · obtain ⟨l, -, rfl⟩ := List.mem_map.1 h
    cases hl

theorem headTable_literal {head : List HeadItem} {D : List (List Nat × List Nat)} {t : GToken} (h : t ∈ headTable head D) (hl : t.flags.literal = true) :
    t.name ∈ (head.flatMap HeadItem.lits).map Prod.fst := by
  unfold headTable at h
  rcases List.mem_append.1 h with h | h
  · rcases List.mem_append.1 h with h | h
    · obtain ⟨d, hd, rfl⟩ := List.mem_map.1 h
      cases hl
    · obtain ⟨n, hn, rfl⟩ := List.mem_map.1 h
      cases hl
  · obtain ⟨l, hm, rfl⟩ := List.mem_map.1 h
    rcases enlistDecl_sub _ _ _ hm with h | h
    · cases h
    · exact List.mem_map.2 ⟨l, h, rfl⟩

/-- Everything about an accepted description. -/
theorem accepted {okRe : List Nat → Bool} {fuel : Nat} {inp : List (Except LErr LTok)} {c : Ctx} (hp : Plain inp)
    (h : Verif.Model.LangDef.read okRe fuel inp = .done (.ok c)) :
    ∃ head body D, IsDescription head body inp ∧ Correct okRe head body D ∧ Nodes head body c ∧
      c.tokens = enlistLits (headTable head D) (body.flatMap BodyItem.lits) := by
  obtain ⟨head, body, ts1, ts2, T, D, c0, e, d1, d2, ⟨t, us, rfl, hk⟩, hdef, hext, hnum, htok, hlay, hres, hb⟩ := read_sound hp h
  have hfirst : ∃ n es rest, body = .node n es :: rest := by
    generalize he : t :: us = l at d2
    cases d2 with
    | nil => cases he
    | cons hi hr =>
      cases hi with
      | node n _ => exact ⟨_, _, _, rfl⟩
      | layer hl =>
        obtain ⟨vs, rfl⟩ := layer_head hl
        cases he
        cases hk
  have htokens := hb.tokens
  rw [htok] at htokens
  obtain ⟨n, es, rest, hbody⟩ := hfirst
  refine ⟨head, body, D, ⟨ts1, t :: us, n, es, rest, e, d1, d2, hbody⟩, ?_, ?_, htokens⟩
  · refine ⟨by unfold typeDefs; rw [hdef]; rfl, ?_, hb.nodup, ?_, ?_, hnum⟩
    · intro n hn
      by_cases hd : n ∈ D.map Prod.fst
      · exact .inl hd
      · refine .inr (hext n ?_)
        unfold undefinedTypes
        rw [List.mem_filter]
        refine ⟨(mem_enlist _ _ _).2 (.inr hn), ?_⟩
        simp only [List.contains_eq_mem, hd, decide_false, Bool.not_false]
    · intro n es he m hm
      obtain ⟨i, t, h1, h2, h3, h4⟩ := hb.types n es he m hm
      rw [htok] at h1 h2
      rw [List.findIdx?_eq_some_iff_getElem] at h1
      obtain ⟨hi, h5, -⟩ := h1
      rw [List.getElem?_eq_getElem hi, Option.some.injEq] at h2
      rw [h2] at h5
      simp only [decide_eq_true_eq] at h5
      obtain ⟨hx, hs, hr⟩ := headTable_type (t := t) (by rw [← h2]; exact List.getElem_mem _) h5.2
      rw [h5.1] at hx hs hr
      refine ⟨?_, by rw [← hs, h3], by rw [← hr, h4]⟩
      rcases hx with hx | hx
      · exact .inl hx
      · exact .inr (hext m hx)
    · intro hr m hm
      have hsame := hb.lits (by rw [hres]; exact hr)
      rw [htokens, htok] at hsame
      obtain ⟨t, ht, hl, hn⟩ := enlistLits_mem _ (headTable head D) m hm
      rw [hsame] at ht
      rw [← hn]
      exact headTable_literal ht hl
  · refine ⟨hb.names, ?_, ?_, by rw [hb.layers, hlay]⟩
    · intro n es he
      obtain ⟨i, chs, h1, h2, h3, h4⟩ := hb.defined n es he
      obtain ⟨r, hr, h5⟩ := chunkAt_some h3
      unfold nodeIndex at h1
      rw [List.findIdx?_eq_some_iff_getElem] at h1
      obtain ⟨hi, h6, -⟩ := h1
      rw [List.getElem?_eq_getElem hi, Option.some.injEq] at hr
      refine ⟨r, by rw [← hr]; exact List.getElem_mem _, ?_, chs, h2, h5, ?_⟩
      · rw [← hr]; simpa using h6
      · unfold depsAt at h4
        rw [List.getElem?_eq_getElem hi, hr] at h4
        exact h4
    · intro r hr hn
      obtain ⟨i, hi⟩ := List.getElem?_of_mem hr
      obtain ⟨h1, h2⟩ := hb.undef i r.name (by unfold nodeNames; rw [List.getElem?_map, hi]; rfl) hn
      unfold depsAt at h1
      unfold chunkAt at h2
      rw [hi] at h1 h2
      exact ⟨h2, h1⟩

end Verif.Proof.LangDef
