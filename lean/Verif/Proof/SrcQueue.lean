import Verif.Model.SrcQueue
import Verif.Proof.Queue
import Verif.Spec.SrcList

namespace Verif.Model.SrcQueue

open Verif.Spec (SrcList.State SrcList.step SrcList.Op)
open Verif.Spec

/-- Items of the ring buffer for saved sources. -/
def itemsOf (l : SrcList.State Src) : List QItem := l.map fun x => { source := some x.1, pos := x.2 }

/-- The queue holds exactly the sources of the list. -/
structure Rep (q : SrcQueue) (l : SrcList.State Src) : Prop where
  rest : Queue.Rep q.q (itemsOf l.tail)
  source : q.source = l.head?.map Prod.fst
  pos : q.pos = (l.head?.map Prod.snd).getD 0

/-- Possible states: positions are valid, empty source is the only one. -/
structure Ok (l : SrcList.State Src) : Prop where
  pos : ∀ x ∈ l, x.2 ≤ x.1.len
  empty : ∀ x rest, l = x :: rest → x.1.len = 0 → rest = []
  tail : ∀ x ∈ l.tail, x.1.len ≠ 0

theorem ok_nil : Ok [] := ⟨by simp, by simp, by simp⟩

theorem new_rep : ∃ q, new = some q ∧ Rep q [] := by
  obtain ⟨q, e, r⟩ := Queue.fill_rep ([] : List QItem) (by simp)
  exact ⟨⟨q, none, 0⟩, by simp [new, Queue.new, e], ⟨r, rfl, rfl⟩⟩

theorem Rep.hasContent {q : SrcQueue} {l : SrcList.State Src} (h : Rep q l) :
    q.hasContent = match l with | [] => false | x :: _ => x.1.len != 0 := by
  unfold SrcQueue.hasContent
  rw [h.source]
  cases l <;> rfl

theorem Rep.next {q : SrcQueue} {l : SrcList.State Src} (h : Rep q l) (hl : l.length ≤ 2 ^ 31) :
    ∃ q', q.nextSource = some (q', !l.tail.isEmpty) ∧ Rep q' l.tail := by
  unfold nextSource
  have hr := h.rest
  cases ht : l.tail with
  | nil =>
    rw [ht] at hr
    rw [Queue.Rep.first_nil hr]
    exact ⟨⟨q.q, none, 0⟩, by simp, ⟨by simpa [itemsOf] using hr, rfl, rfl⟩⟩
  | cons x rest =>
    rw [ht] at hr
    have hlen : rest.length < 2 ^ 31 := by
      have := congrArg List.length ht
      simp at this; omega
    obtain ⟨q', e, r⟩ := Queue.Rep.first_cons (x := { source := some x.1, pos := x.2 }) (l := itemsOf rest) hr
      (by simpa [itemsOf] using hlen)
    rw [e]
    exact ⟨⟨q', some x.1, x.2⟩, by simp, ⟨r, rfl, rfl⟩⟩

theorem Rep.append {q : SrcQueue} {l : SrcList.State Src} (h : Rep q l) (s : Src) :
    ∃ q', q.append (some s) = some q' ∧ Rep q' (SrcList.append Src.len l s) := by
  simp only [SrcQueue.append, h.hasContent]
  cases l with
  | nil =>
    refine ⟨{ q with source := some s, pos := 0 }, by simp, ?_⟩
    exact ⟨by simpa [SrcList.append] using h.rest, rfl, rfl⟩
  | cons x rest =>
    by_cases hx : x.1.len = 0
    · refine ⟨{ q with source := some s, pos := 0 }, by simp [hx], ?_⟩
      exact ⟨by simpa [SrcList.append, hx] using h.rest, by simp [SrcList.append, hx], by simp [SrcList.append, hx]⟩
    · by_cases hs : s.len = 0
      · exact ⟨q, by simp [hx, hs], by simpa [SrcList.append, hx, hs] using h⟩
      · obtain ⟨q', e, r⟩ := Queue.Rep.append_rep h.rest { source := some s, pos := 0 }
        refine ⟨{ q with q := q' }, by simp [hx, hs, e], ?_⟩
        refine ⟨?_, by simp [SrcList.append, hx, hs, h.source], by simp [SrcList.append, hx, hs, h.pos]⟩
        simpa [SrcList.append, hx, hs, itemsOf] using r

theorem Rep.prepend {q : SrcQueue} {l : SrcList.State Src} (h : Rep q l) (s : Src) :
    ∃ q', q.prepend (some s) = some q' ∧ Rep q' (SrcList.prepend Src.len l s) := by
  simp only [SrcQueue.prepend, h.hasContent]
  cases l with
  | nil =>
    refine ⟨{ q with source := some s, pos := 0 }, by simp, ?_⟩
    exact ⟨by simpa [SrcList.prepend] using h.rest, rfl, rfl⟩
  | cons x rest =>
    by_cases hx : x.1.len = 0
    · refine ⟨{ q with source := some s, pos := 0 }, by simp [hx], ?_⟩
      exact ⟨by simpa [SrcList.prepend, hx] using h.rest, by simp [SrcList.prepend, hx],
        by simp [SrcList.prepend, hx]⟩
    · by_cases hs : s.len = 0
      · exact ⟨q, by simp [hx, hs], by simpa [SrcList.prepend, hx, hs] using h⟩
      · obtain ⟨q', e, r⟩ := Queue.Rep.prepend_rep h.rest { source := q.source, pos := q.pos }
        refine ⟨⟨q', some s, 0⟩, by simp [hx, hs, e], ?_⟩
        refine ⟨?_, by simp [SrcList.prepend, hx, hs], by simp [SrcList.prepend, hx, hs]⟩
        have h1 := h.source
        have h2 := h.pos
        simp at h1 h2
        simpa [SrcList.prepend, hx, hs, itemsOf, h1, h2] using r

theorem Rep.skip {q : SrcQueue} {l : SrcList.State Src} (h : Rep q l) (n : Int) :
    Rep (q.skip n) (SrcList.move (fun c p => if n ≤ 0 then p else min (p + n.toNat) c.len) l) := by
  have h1 := h.source
  have h2 := h.pos
  cases l with
  | nil => simpa [SrcQueue.skip, h1, SrcList.move] using h
  | cons x rest =>
    simp at h1 h2
    by_cases hn : n ≤ 0
    · simpa [SrcQueue.skip, h1, SrcList.move, hn] using h
    · refine ⟨by simpa [SrcQueue.skip, h1, SrcList.move, hn] using h.rest, by simp [SrcQueue.skip, h1, SrcList.move, hn], ?_⟩
      simp [SrcQueue.skip, h1, h2, SrcList.move, hn]
      split <;> omega

theorem Rep.rewind {q : SrcQueue} {l : SrcList.State Src} (h : Rep q l) (n : Int) :
    Rep (q.rewind n) (SrcList.move (fun _ p => p - n.toNat) l) := by
  have h1 := h.source
  have h2 := h.pos
  cases l with
  | nil => simpa [SrcQueue.rewind, h1, SrcList.move] using h
  | cons x rest =>
    simp at h1 h2
    by_cases hn : n ≤ 0
    · have : n.toNat = 0 := by omega
      simpa [SrcQueue.rewind, h1, SrcList.move, hn, this] using h
    · refine ⟨by simpa [SrcQueue.rewind, h1, SrcList.move, hn] using h.rest, by simp [SrcQueue.rewind, h1, SrcList.move, hn], ?_⟩
      simp [SrcQueue.rewind, h1, h2, SrcList.move, hn]
      split <;> omega

theorem Rep.seek {q : SrcQueue} {l : SrcList.State Src} (h : Rep q l) (n : Int) :
    Rep (q.seek n) (SrcList.move (fun c _ => min n.toNat c.len) l) := by
  have h1 := h.source
  have h2 := h.pos
  cases l with
  | nil => simpa [SrcQueue.seek, h1, SrcList.move] using h
  | cons x rest =>
    simp at h1 h2
    refine ⟨by simpa [SrcQueue.seek, h1, SrcList.move] using h.rest, by simp [SrcQueue.seek, h1, SrcList.move], ?_⟩
    simp [SrcQueue.seek, h1, SrcList.move]
    split
    · omega
    · split <;> omega

/-- Snapshot of a represented list. -/
def snapOf (l : SrcList.State Src) : QSnapshot :=
  { items := itemsOf l.tail, source := l.head?.map Prod.fst, pos := (l.head?.map Prod.snd).getD 0 }

theorem Rep.snapshot {q : SrcQueue} {l : SrcList.State Src} (h : Rep q l) : q.snapshot = some (snapOf l) := by
  simp [SrcQueue.snapshot, h.rest.getItems_eq, snapOf, h.source, h.pos]

theorem restore_snapOf (q : SrcQueue) (l : SrcList.State Src) (hl : l.length < 2 ^ 32) :
    ∃ q', q.restore (snapOf l) = some q' ∧ Rep q' l := by
  obtain ⟨q', e, r⟩ := Queue.fill_rep (itemsOf l.tail) (by simp [itemsOf]; omega)
  exact ⟨⟨q', l.head?.map Prod.fst, (l.head?.map Prod.snd).getD 0⟩, by simp [restore, snapOf, e], ⟨r, rfl, rfl⟩⟩

/-! ### Possible states -/

theorem Ok.append {l : SrcList.State Src} (h : Ok l) (s : Src) : Ok (SrcList.append Src.len l s) := by
  cases l with
  | nil => exact ⟨by simp [SrcList.append], by simp [SrcList.append], by simp [SrcList.append]⟩
  | cons x rest =>
    by_cases hx : x.1.len = 0
    · have hr := h.empty x rest rfl hx
      subst hr
      exact ⟨by simp [SrcList.append, hx], by simp [SrcList.append, hx], by simp [SrcList.append, hx]⟩
    · by_cases hs : s.len = 0
      · simpa [SrcList.append, hx, hs] using h
      · have e : SrcList.append Src.len (x :: rest) s = x :: (rest ++ [(s, 0)]) := by
          simp [SrcList.append, hx, hs]
        rw [e]
        refine ⟨?_, ?_, ?_⟩
        · intro y hy
          simp at hy
          rcases hy with rfl | hy | rfl
          · exact h.pos _ (by simp)
          · exact h.pos y (by simp [hy])
          · simp
        · intro y r he h0
          simp at he
          obtain ⟨rfl, _⟩ := he
          exact absurd h0 hx
        · intro y hy
          simp at hy
          rcases hy with hy | rfl
          · exact h.tail y (by simpa using hy)
          · exact hs

theorem Ok.prepend {l : SrcList.State Src} (h : Ok l) (s : Src) : Ok (SrcList.prepend Src.len l s) := by
  cases l with
  | nil => exact ⟨by simp [SrcList.prepend], by simp [SrcList.prepend], by simp [SrcList.prepend]⟩
  | cons x rest =>
    by_cases hx : x.1.len = 0
    · have hr := h.empty x rest rfl hx
      subst hr
      exact ⟨by simp [SrcList.prepend, hx], by simp [SrcList.prepend, hx], by simp [SrcList.prepend, hx]⟩
    · by_cases hs : s.len = 0
      · simpa [SrcList.prepend, hx, hs] using h
      · have e : SrcList.prepend Src.len (x :: rest) s = (s, 0) :: x :: rest := by
          simp [SrcList.prepend, hx, hs]
        rw [e]
        refine ⟨?_, ?_, ?_⟩
        · intro y hy
          rcases List.mem_cons.1 hy with rfl | hy
          · simp
          · exact h.pos y hy
        · intro y r he h0
          simp at he
          obtain ⟨rfl, _⟩ := he
          exact absurd h0 hs
        · intro y hy
          rw [List.tail_cons] at hy
          rcases List.mem_cons.1 hy with rfl | hy
          · exact hx
          · exact h.tail y hy

theorem Ok.move {l : SrcList.State Src} (h : Ok l) (f : Src → Nat → Nat) (hf : ∀ c p, p ≤ c.len → f c p ≤ c.len) :
    Ok (SrcList.move f l) := by
  cases l with
  | nil => exact ok_nil
  | cons x rest =>
    refine ⟨?_, ?_, h.tail⟩
    · intro y hy
      rcases List.mem_cons.1 hy with rfl | hy
      · exact hf _ _ (h.pos x (by simp))
      · exact h.pos y (by simp [hy])
    · intro y r he h0
      simp [SrcList.move] at he
      obtain ⟨rfl, rfl⟩ := he
      exact h.empty x rest rfl h0

theorem Ok.next {l : SrcList.State Src} (h : Ok l) : Ok l.tail := by
  refine ⟨fun x hx => h.pos x (List.mem_of_mem_tail hx), ?_, fun x hx => h.tail x (List.mem_of_mem_tail hx)⟩
  intro x rest he h0
  exact absurd h0 (h.tail x (by rw [he]; simp))

theorem move_length (f : Src → Nat → Nat) (l : SrcList.State Src) : (SrcList.move f l).length = l.length := by
  cases l <;> rfl

theorem append_length (l : SrcList.State Src) (s : Src) : (SrcList.append Src.len l s).length ≤ l.length + 1 := by
  cases l with
  | nil => simp [SrcList.append]
  | cons x rest =>
    by_cases hx : x.1.len = 0 <;> by_cases hs : s.len = 0 <;> simp [SrcList.append, hx, hs]

theorem prepend_length (l : SrcList.State Src) (s : Src) : (SrcList.prepend Src.len l s).length ≤ l.length + 1 := by
  cases l with
  | nil => simp [SrcList.prepend]
  | cons x rest =>
    by_cases hx : x.1.len = 0 <;> by_cases hs : s.len = 0 <;> simp [SrcList.prepend, hx, hs]

end Verif.Model.SrcQueue
