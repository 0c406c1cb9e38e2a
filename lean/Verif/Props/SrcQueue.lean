/-
C09-C11: the source queue is a list of sources with positions.
-/
import Verif.Proof.SrcQueue

namespace Verif.Props

open Verif.Model Verif.Spec

/-- Everything that can be observed in a source queue without changing it. -/
structure QueueView where
  source : Option Src
  sourceName : String
  pos : Int
  sourcePos : SrcPos
  isEmpty : Bool
  eof : Bool
  contentPos : List Nat × Int
deriving DecidableEq

/-- Observations of the model queue. -/
def viewQueue (q : SrcQueue) : QueueView :=
  { source := q.source, sourceName := q.sourceName, pos := q.pos, sourcePos := q.sourcePos,
    isEmpty := q.isEmpty, eof := q.eof, contentPos := q.contentPos }

/-- What should be observed in a queue holding the list of sources. -/
def viewList : SrcList.State Src → QueueView
  | [] => { source := none, sourceName := "", pos := 0, sourcePos := ⟨none, 0⟩, isEmpty := true, eof := true,
            contentPos := ([], 0) }
  | (s, p) :: _ =>
    { source := some s, sourceName := s.name, pos := p, sourcePos := ⟨some s, p⟩, isEmpty := false,
      eof := decide (p = s.content.length), contentPos := (s.content, p) }

/-- One call of the queue API in the model; second component of the state is the list of snapshots taken so far,
the result is the returned boolean of `NextSource`. -/
def srcCall (st : SrcQueue × List QSnapshot) : SrcList.Op Src → Option ((SrcQueue × List QSnapshot) × Option Bool)
  | .append s => (st.1.append s).map fun q => ((q, st.2), none)
  | .prepend s => (st.1.prepend s).map fun q => ((q, st.2), none)
  | .next => st.1.nextSource.map fun (q, b) => ((q, st.2), some b)
  | .skip n => some ((st.1.skip n, st.2), none)
  | .rewind n => some ((st.1.rewind n, st.2), none)
  | .seek n => some ((st.1.seek n, st.2), none)
  | .snapshot => st.1.snapshot.map fun s => ((st.1, st.2 ++ [s]), none)
  | .restore k =>
    match st.2[k]? with
    | none => some (st, none)
    | some s => (st.1.restore s).map fun q => ((q, st.2), none)

/-- A history of calls: final state and observations after each call; `none` is a panic. -/
def srcRun (st : SrcQueue × List QSnapshot) : List (SrcList.Op Src) →
    Option ((SrcQueue × List QSnapshot) × List (Option Bool × QueueView))
  | [] => some (st, [])
  | op :: ops => do
    let (st', b) ← srcCall st op
    let (st'', os) ← srcRun st' ops
    return (st'', (b, viewQueue st'.1) :: os)

/-- Observations expected for a history. -/
def expectedRun (st : SrcList.State Src × List (SrcList.State Src)) : List (SrcList.Op Src) →
    List (Option Bool × QueueView)
  | [] => []
  | op :: ops =>
    let r := SrcList.step Src.len st op
    (r.2, viewList r.1.1) :: expectedRun r.1 ops

/-- Relation of model state and list state, with a size bound. -/
structure StateRep (st : SrcQueue × List QSnapshot) (l : SrcList.State Src × List (SrcList.State Src)) (n : Nat) : Prop where
  rep : SrcQueue.Rep st.1 l.1
  snaps : st.2 = l.2.map SrcQueue.snapOf
  ok : SrcQueue.Ok l.1
  oks : ∀ x ∈ l.2, SrcQueue.Ok x ∧ x.length ≤ n
  size : l.1.length ≤ n

theorem view_eq {q : SrcQueue} {l : SrcList.State Src} (h : SrcQueue.Rep q l) (ok : SrcQueue.Ok l) :
    viewQueue q = viewList l := by
  have h1 := h.source
  have h2 := h.pos
  cases l with
  | nil =>
    simp at h1 h2
    simp [viewQueue, viewList, SrcQueue.sourceName, SrcQueue.sourcePos, SrcPos.new, SrcQueue.isEmpty, SrcQueue.eof,
      SrcQueue.contentPos, h1, h2]
  | cons x rest =>
    simp at h1 h2
    have := ok.pos x (by simp)
    have hl : x.1.len = x.1.content.length := rfl
    simp [viewQueue, viewList, SrcQueue.sourceName, SrcQueue.sourcePos, SrcPos.new, SrcQueue.isEmpty, SrcQueue.eof,
      SrcQueue.contentPos, h1, h2, hl]
    omega

theorem srcCall_rep {st : SrcQueue × List QSnapshot} {l : SrcList.State Src × List (SrcList.State Src)} {n : Nat}
    (h : StateRep st l n) (hn : n < 2 ^ 31) (op : SrcList.Op Src) :
    ∃ st', srcCall st op = some (st', (SrcList.step Src.len l op).2) ∧
      StateRep st' (SrcList.step Src.len l op).1 (n + 1) := by
  have up : ∀ x ∈ l.2, SrcQueue.Ok x ∧ x.length ≤ n + 1 := fun x hx => ⟨(h.oks x hx).1, by have := (h.oks x hx).2; omega⟩
  have hsz := h.size
  cases op with
  | append s =>
    cases s with
    | none => exact ⟨st, by simp [srcCall, SrcQueue.append, SrcList.step], ⟨h.rep, h.snaps, h.ok, up, by simp [SrcList.step]; omega⟩⟩
    | some s =>
      obtain ⟨q, e, r⟩ := h.rep.append s
      have := SrcQueue.append_length l.1 s
      exact ⟨(q, st.2), by simp [srcCall, e, SrcList.step], ⟨r, h.snaps, h.ok.append s, up, by simp only [SrcList.step]; omega⟩⟩
  | prepend s =>
    cases s with
    | none => exact ⟨st, by simp [srcCall, SrcQueue.prepend, SrcList.step], ⟨h.rep, h.snaps, h.ok, up, by simp [SrcList.step]; omega⟩⟩
    | some s =>
      obtain ⟨q, e, r⟩ := h.rep.prepend s
      have := SrcQueue.prepend_length l.1 s
      exact ⟨(q, st.2), by simp [srcCall, e, SrcList.step], ⟨r, h.snaps, h.ok.prepend s, up, by simp only [SrcList.step]; omega⟩⟩
  | next =>
    obtain ⟨q, e, r⟩ := h.rep.next (by omega)
    exact ⟨(q, st.2), by simp [srcCall, e, SrcList.step], ⟨r, h.snaps, h.ok.next, up, by simp [SrcList.step]; omega⟩⟩
  | skip k =>
    refine ⟨(st.1.skip k, st.2), by simp [srcCall, SrcList.step], ⟨h.rep.skip k, h.snaps, h.ok.move _ ?_, up, ?_⟩⟩
    · intro c p hp; split <;> omega
    · simp only [SrcList.step, SrcQueue.move_length]; omega
  | rewind k =>
    refine ⟨(st.1.rewind k, st.2), by simp [srcCall, SrcList.step], ⟨h.rep.rewind k, h.snaps, h.ok.move _ ?_, up, ?_⟩⟩
    · intro c p hp; omega
    · simp only [SrcList.step, SrcQueue.move_length]; omega
  | seek k =>
    refine ⟨(st.1.seek k, st.2), by simp [srcCall, SrcList.step], ⟨h.rep.seek k, h.snaps, h.ok.move _ ?_, up, ?_⟩⟩
    · intro c p hp; omega
    · simp only [SrcList.step, SrcQueue.move_length]; omega
  | snapshot =>
    refine ⟨(st.1, st.2 ++ [SrcQueue.snapOf l.1]), by simp [srcCall, h.rep.snapshot, SrcList.step],
      ⟨h.rep, by simp [h.snaps, SrcList.step], h.ok, ?_, by simp [SrcList.step]; omega⟩⟩
    intro x hx
    simp only [SrcList.step, List.mem_append, List.mem_singleton] at hx
    rcases hx with hx | rfl
    · exact up x hx
    · exact ⟨h.ok, by omega⟩
  | restore k =>
    have hs : st.2[k]? = (l.2[k]?).map SrcQueue.snapOf := by rw [h.snaps]; simp
    cases hk : l.2[k]? with
    | none =>
      refine ⟨st, by simp [srcCall, hs, hk, SrcList.step], ?_⟩
      have : (SrcList.step Src.len l (.restore k)).1 = l := by
        simp [SrcList.step, List.getD_eq_getElem?_getD, hk]
      rw [this]
      exact ⟨h.rep, h.snaps, h.ok, up, by omega⟩
    | some x =>
      have hx := h.oks x (List.mem_of_getElem? hk)
      obtain ⟨q, e, r⟩ := SrcQueue.restore_snapOf st.1 x (by omega)
      refine ⟨(q, st.2), by simp [srcCall, hs, hk, e, SrcList.step], ?_⟩
      have : (SrcList.step Src.len l (.restore k)).1 = (x, l.2) := by
        simp [SrcList.step, List.getD_eq_getElem?_getD, hk]
      rw [this]
      exact ⟨r, h.snaps, hx.1, up, by have := hx.2; dsimp only; omega⟩

theorem srcRun_rep {st : SrcQueue × List QSnapshot} {l : SrcList.State Src × List (SrcList.State Src)} {n : Nat}
    (h : StateRep st l n) (ops : List (SrcList.Op Src)) (hn : n + ops.length < 2 ^ 31) :
    ∃ st', srcRun st ops = some (st', expectedRun l ops) ∧
      StateRep st' (SrcList.run Src.len l ops) (n + ops.length) := by
  induction ops generalizing st l n with
  | nil => exact ⟨st, rfl, h⟩
  | cons op ops ih =>
    rw [List.length_cons] at hn
    obtain ⟨st1, e1, r1⟩ := srcCall_rep h (by omega) op
    obtain ⟨st2, e2, r2⟩ := ih r1 (by omega)
    refine ⟨st2, ?_, ?_⟩
    · unfold srcRun
      rw [e1]
      simp only [Option.bind_eq_bind, Option.bind_some, e2, Option.pure_def, expectedRun, view_eq r1.rep r1.ok]
    · have : n + (op :: ops).length = n + 1 + ops.length := by simp; omega
      rw [this]; exact r2

/-- **C09**. Every history of source queue calls gives, without panics, exactly the observations (current source,
its name and position, emptiness, end of source, content, results of `NextSource`) of the same history on a list of
sources with saved positions. The number of calls is limited by `2^31`, see C01. -/
theorem C09_source_queue_is_list (ops : List (SrcList.Op Src)) (hn : ops.length < 2 ^ 31) :
    ∃ q st, SrcQueue.new = some q ∧ srcRun (q, []) ops = some (st, expectedRun ([], []) ops) := by
  obtain ⟨q, e, r⟩ := SrcQueue.new_rep
  obtain ⟨st, e', _⟩ := srcRun_rep (n := 0) (l := ([], [])) (st := (q, []))
    ⟨r, rfl, SrcQueue.ok_nil, by simp, by simp⟩ ops (by omega)
  exact ⟨q, st, e, e'⟩

/-- A history meeting the hypothesis, with two sources, saved position and an ignored empty source. -/
example : let a : Src := ⟨1, "a", [1, 2, 3]⟩
    let b : Src := ⟨2, "b", [4]⟩
    let e : Src := ⟨3, "e", []⟩
    (expectedRun ([], []) [.append (some e), .append (some a), .skip 2, .append (some e), .prepend (some b), .next]).map
      (fun x => (x.2.sourceName, x.2.pos)) = [("e", 0), ("a", 0), ("a", 2), ("a", 2), ("b", 0), ("a", 2)] := by
  decide +kernel

/-- **C10**. After any history the position is within the current source (0 if there is none), and `Eof` is true
exactly when there is no source or the position is the length of the source. -/
theorem C10_position_bounds (ops : List (SrcList.Op Src)) (hn : ops.length < 2 ^ 31) :
    ∃ q0 q snaps os, SrcQueue.new = some q0 ∧ srcRun (q0, []) ops = some ((q, snaps), os) ∧
      (q.source = none → q.pos = 0) ∧
      (∀ s, q.source = some s → 0 ≤ q.pos ∧ q.pos ≤ s.content.length) ∧
      (q.eof = true ↔ q.source = none ∨ ∃ s, q.source = some s ∧ q.pos = s.content.length) := by
  obtain ⟨q0, e, r⟩ := SrcQueue.new_rep
  obtain ⟨⟨q, snaps⟩, e', r'⟩ := srcRun_rep (n := 0) (l := ([], [])) (st := (q0, []))
    ⟨r, rfl, SrcQueue.ok_nil, by simp, by simp⟩ ops (by omega)
  refine ⟨q0, q, snaps, _, e, e', ?_⟩
  generalize (SrcList.run Src.len ([], []) ops) = l at r'
  obtain ⟨l, ls⟩ := l
  have h1 := r'.rep.source
  have h2 := r'.rep.pos
  have h3 := r'.ok
  cases l with
  | nil =>
    simp at h1 h2
    simp [h1, h2, SrcQueue.eof]
  | cons x rest =>
    simp at h1 h2
    have := h3.pos x (by simp)
    have hl : x.1.len = x.1.content.length := rfl
    simp [h1, h2, SrcQueue.eof, hl]
    omega

/-- **C11**. Let `s` be a snapshot taken after history `before`. Whatever calls `between` follow, after restoring
`s` the queue is indistinguishable from the queue at the moment the snapshot was taken: any further history `after`
gives the same observations - and this may be done again with the same snapshot. -/
theorem C11_snapshot_restore (before between after : List (SrcList.Op Src))
    (hn : before.length + between.length + after.length + 2 < 2 ^ 31)
    (ha : ∀ op ∈ after, ∀ k, op ≠ .restore k) :
    ∃ q0 q1 l1 s o1 q2 l2 o2 q3 r1 r2, SrcQueue.new = some q0 ∧
      srcRun (q0, []) before = some ((q1, l1), o1) ∧ q1.snapshot = some s ∧
      srcRun (q1, l1 ++ [s]) between = some ((q2, l2), o2) ∧ q2.restore s = some q3 ∧
      viewQueue q3 = viewQueue q1 ∧
      srcRun (q1, l1) after = some r1 ∧ srcRun (q3, l2) after = some r2 ∧ r1.2 = r2.2 := by
  obtain ⟨q0, e0, r0⟩ := SrcQueue.new_rep
  obtain ⟨⟨q1, l1⟩, e1, r1⟩ := srcRun_rep (n := 0) (l := ([], [])) (st := (q0, []))
    ⟨r0, rfl, SrcQueue.ok_nil, by simp, by simp⟩ before (by omega)
  obtain ⟨st1', e1', r1'⟩ := srcCall_rep r1 (by omega) .snapshot
  have hst1 : st1' = (q1, l1 ++ [SrcQueue.snapOf (SrcList.run Src.len ([], []) before).1]) := by
    have := e1'
    simp [srcCall, r1.rep.snapshot] at this
    exact this.1.symm
  subst hst1
  obtain ⟨⟨q2, l2⟩, e2, r2⟩ := srcRun_rep r1' between (by omega)
  obtain ⟨q3, e3, r3⟩ := SrcQueue.restore_snapOf q2 (SrcList.run Src.len ([], []) before).1
    (by have := r1.size; omega)
  obtain ⟨st4, e4, r4⟩ := srcRun_rep r1 after (by omega)
  have r3' : StateRep (q3, l2) ((SrcList.run Src.len ([], []) before).1,
      (SrcList.run Src.len (SrcList.step Src.len (SrcList.run Src.len ([], []) before) .snapshot).1 between).2)
      (0 + before.length + 1 + between.length) :=
    ⟨r3, r2.snaps, r1.ok, r2.oks, by have := r1.size; simp only at this ⊢; omega⟩
  obtain ⟨st5, e5, r5⟩ := srcRun_rep r3' after (by omega)
  refine ⟨q0, q1, l1, _, _, q2, l2, _, q3, _, _, e0, e1, r1.rep.snapshot, e2, e3, ?_, e4, e5, ?_⟩
  · rw [view_eq r3 r1.ok, view_eq r1.rep r1.ok]
  · -- without `restore` the observations do not depend on snapshots taken
    have key : ∀ (ops : List (SrcList.Op Src)) (l : SrcList.State Src) (ls ls' : List (SrcList.State Src)),
        (∀ op ∈ ops, ∀ k, op ≠ .restore k) → expectedRun (l, ls) ops = expectedRun (l, ls') ops := by
      intro ops
      induction ops with
      | nil => intros; rfl
      | cons op ops ih =>
        intro l ls ls' h
        have h' := fun o ho => h o (List.mem_cons_of_mem _ ho)
        have h0 := h op (by simp)
        have hop : ∀ ls ls', (SrcList.step Src.len (l, ls) op).2 = (SrcList.step Src.len (l, ls') op).2 ∧
            (SrcList.step Src.len (l, ls) op).1.1 = (SrcList.step Src.len (l, ls') op).1.1 := by
          intro ls ls'
          cases op with
          | append s => cases s <;> exact ⟨rfl, rfl⟩
          | prepend s => cases s <;> exact ⟨rfl, rfl⟩
          | restore k => exact absurd rfl (h0 k)
          | next => exact ⟨rfl, rfl⟩
          | skip n => exact ⟨rfl, rfl⟩
          | rewind n => exact ⟨rfl, rfl⟩
          | seek n => exact ⟨rfl, rfl⟩
          | snapshot => exact ⟨rfl, rfl⟩
        obtain ⟨a1, a2⟩ := hop ls ls'
        simp only [expectedRun, a1, a2]
        congr 1
        have e1 : (SrcList.step Src.len (l, ls) op).1 =
          ((SrcList.step Src.len (l, ls') op).1.1, (SrcList.step Src.len (l, ls) op).1.2) := by rw [← a2]
        rw [e1, ih _ _ _ h']
    exact key after _ _ _ ha

/-- C11 is not about equal states only: here the queue between snapshot and restore is empty. -/
example : let a : Src := ⟨1, "a", [1, 2, 3]⟩
    let b : Src := ⟨2, "b", [4]⟩
    (expectedRun ([], []) [.append (some a), .append (some b), .skip 1, .snapshot, .next, .next, .restore 0, .next,
      .restore 0]).map (fun x => (x.2.sourceName, x.2.pos)) =
      [("a", 0), ("a", 0), ("a", 1), ("a", 1), ("b", 0), ("", 0), ("a", 1), ("b", 0), ("a", 1)] := by
  decide +kernel

end Verif.Props
