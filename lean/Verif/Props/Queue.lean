/-
C01: the ring buffer queue behaves as a plain double-ended list.
-/
import Verif.Proof.Queue
import Verif.Spec.Deque

namespace Verif.Props

open Verif.Model Verif.Spec

variable {α : Type} [Inhabited α]

/-- One API call on the model of the Go queue; `none` is a panic. Pairs `(value, ok)` returned by Go are
observed as `some value` or (if `ok` is false, and then the value must be the zero value) `none`. -/
def queueCall (q : Queue α) : Deque.Op α → Option (Queue α × Deque.Obs α)
  | .append x => (q.append x).map fun q => (q, .unit)
  | .prepend x => (q.prepend x).map fun q => (q, .unit)
  | .first => q.first.map fun (q, x, ok) => (q, .elem (if ok then some x else none))
  | .last => q.last.map fun (q, x, ok) => (q, .elem (if ok then some x else none))
  | .peek i => (q.peek i).map fun (x, ok) => (q, .elem (if ok then some x else none))
  | .items => q.getItems.map fun l => (q, .list l)
  | .len => some (q, .nat q.len)
  | .isEmpty => some (q, .bool q.isEmpty)
  | .fill l => (Queue.fill l).map fun q => (q, .unit)
  | .clear => Queue.clear.map fun q => (q, .unit)

/-- All observations of a history of API calls; `none` is a panic. -/
def queueRun (q : Queue α) : List (Deque.Op α) → Option (List (Deque.Obs α))
  | [] => some []
  | op :: ops => do
    let (q', o) ← queueCall q op
    let os ← queueRun q' ops
    return o :: os

theorem queueCall_rep {q : Queue α} {l : List α} (h : Queue.Rep q l) (op : Deque.Op α)
    (hl : l.length < 2 ^ 31) (hl' : (Deque.step l op).1.length < 2 ^ 31) :
    ∃ q', queueCall q op = some (q', (Deque.step l op).2) ∧ Queue.Rep q' (Deque.step l op).1 := by
  cases op with
  | append x => obtain ⟨q', e, r⟩ := h.append_rep x; exact ⟨q', by simp [queueCall, e, Deque.step], r⟩
  | prepend x => obtain ⟨q', e, r⟩ := h.prepend_rep x; exact ⟨q', by simp [queueCall, e, Deque.step], r⟩
  | first =>
    cases l with
    | nil => exact ⟨q, by simp [queueCall, h.first_nil, Deque.step], h⟩
    | cons x l =>
      obtain ⟨q', e, r⟩ := h.first_cons (by simp at hl; omega)
      exact ⟨q', by simp [queueCall, e, Deque.step], r⟩
  | last =>
    rcases List.eq_nil_or_concat l with rfl | ⟨l', x, rfl⟩
    · exact ⟨q, by simp [queueCall, h.last_nil, Deque.step], h⟩
    · rw [List.concat_eq_append] at *
      obtain ⟨q', e, r⟩ := h.last_append
      exact ⟨q', by simp [queueCall, e, Deque.step], by simpa [Deque.step] using r⟩
  | peek i =>
    refine ⟨q, ?_, h⟩
    have e : (if i < 0 then (if i + l.length < 0 then none else l[(i + l.length).toNat]?)
        else l[i.toNat]?) = Deque.peekAt l i := by
      by_cases hi : i < 0
      · have hi' : ¬ 0 ≤ i := by omega
        by_cases hj : i + l.length < 0
        · have hj' : ¬ 0 ≤ i + l.length := by omega
          simp [Deque.peekAt, hi, hi', hj, hj']
        · have hj' : 0 ≤ i + l.length := by omega
          simp [Deque.peekAt, hi, hi', hj, hj']
      · have hi' : 0 ≤ i := by omega
        simp [Deque.peekAt, hi, hi']
    simp only [queueCall, h.peek_eq, Deque.step, e, Option.map_some]
    cases Deque.peekAt l i <;> rfl
  | items => exact ⟨q, by simp [queueCall, h.getItems_eq, Deque.step], h⟩
  | len => exact ⟨q, by simp [queueCall, h.len_eq, Deque.step], h⟩
  | isEmpty => exact ⟨q, by simp [queueCall, h.isEmpty_eq, Deque.step], h⟩
  | fill l' =>
    obtain ⟨q', e, r⟩ := Queue.fill_rep l' (by simp [Deque.step] at hl'; omega)
    exact ⟨q', by simp [queueCall, e, Deque.step], r⟩
  | clear =>
    obtain ⟨q', e, r⟩ := Queue.fill_rep ([] : List α) (by simp)
    exact ⟨q', by simp [queueCall, Queue.clear, e, Deque.step], r⟩

theorem queueRun_rep {q : Queue α} {l : List α} (h : Queue.Rep q l) (ops : List (Deque.Op α))
    (hb : Deque.Bounded (2 ^ 31) l ops) : queueRun q ops = some (Deque.run l ops) := by
  induction ops generalizing q l with
  | nil => rfl
  | cons op ops ih =>
    have hl' : (Deque.step l op).1.length < 2 ^ 31 := by
      have := hb.2
      cases ops with
      | nil => exact this
      | cons _ _ => exact this.1
    obtain ⟨q', e, r⟩ := queueCall_rep h op hb.1 hl'
    simp [queueRun, e, ih r hb.2, Deque.run]

/-- **C01.** Every history of queue API calls starting with `New(init...)` gives, without a panic, exactly the
observations of the same history on a plain list, as long as the queue never holds `2^31` elements or more. -/
theorem C01_queue_is_deque (init : List α) (ops : List (Deque.Op α))
    (hb : Deque.Bounded (2 ^ 31) init ops) :
    ((Queue.new init).bind fun q => queueRun q ops) = some (Deque.run init ops) := by
  have hi : init.length < 2 ^ 32 := by
    cases ops with
    | nil => have : init.length < 2 ^ 31 := hb; omega
    | cons _ _ => have := hb.1; omega
  obtain ⟨q, e, r⟩ := Queue.fill_rep init hi
  rw [Queue.new, e]
  exact queueRun_rep r ops hb

/-- The hypothesis of `C01_queue_is_deque` is met by a history that wraps around, grows and shrinks. -/
example : Deque.Bounded (2 ^ 31) [1, 2, 3] [.first, .append 4, .append 5, .prepend 6, .peek (-1), .clear] := by
  simp [Deque.Bounded, Deque.step]

/-- The size bound is needed: for `2^32` elements the capacity mask computed by the code is not one less than a
power of two, so indices would not wrap correctly. -/
theorem C01_mask_boundary : ∀ k < 64, Queue.computeSize (2 ^ 32) ≠ 2 ^ k - 1 := by
  decide

end Verif.Props
