/-
C70: iteration orders of maps do not leak into grammars.
-/
import Verif.Proof.CompileOrder
import Verif.Model.Examples
import Verif.Props.LangParse

namespace Verif.Props

open Verif.Model Verif.Model.LangDef Verif.Spec Verif.Spec.Ebnf Verif.Proof

/-- C70: if node definitions are compiled into a grammar with some iteration orders of the map of nodes then with any other orders
compilation ends with the same grammar. -/
theorem C70_order_free {upper : List Nat → List Nat} {find : Nat → List Nat → List Nat} {ts : List GToken} {defs : List (Option Chunk)}
    (hwf : ∀ c, some c ∈ defs → WF c) (hdef : ∀ c, some c ∈ defs → ∀ j ∈ refs c, j < defs.length)
    {order1 order2 order3 order1' order2' order3' : List Nat}
    (h1 : order1.Perm (List.range defs.length)) (h2 : order2.Perm (List.range defs.length)) (h3 : order3.Perm (List.range defs.length))
    (h1' : order1'.Perm (List.range defs.length)) (h2' : order2'.Perm (List.range defs.length)) (h3' : order3'.Perm (List.range defs.length))
    {fuel : Nat} {g : Grammar} (h : compile upper find ts defs order1 order2 order3 fuel = .done (.ok g)) :
    ∃ N, ∀ fuel', N ≤ fuel' → compile upper find ts defs order1' order2' order3' fuel' = .done (.ok g) := by
  obtain ⟨ttypes, ft, pr, fs, pr', htt, hund, hun, hres, hb, hrec, has, hg, hts⟩ := compile_steps h
  have hall := fetched_all h1 hund
  generalize hbs : defs.filterMap id = bodies at *
  have hlen : defs.length = bodies.length := by rw [hall]; simp
  rw [hlen] at h2 h3 h2' h3'
  have hmem : ∀ c, c ∈ bodies → some c ∈ defs := fun c hc => by rw [hall]; exact List.mem_map_of_mem hc
  obtain ⟨N, hN⟩ := resolve_same (fun c hc => hwf c (hmem c hc)) (fun c hc => hlen ▸ hdef c (hmem c hc)) h2 h3 h2' h3' hres
  refine ⟨max N fuel, fun fuel' hf => ?_⟩
  have hund' : findUndefinedNodes (fun i => (defs[i]?).getD none) order1' = [] := by
    have : (findUndefinedNodes (fun i => (defs[i]?).getD none) order1').Perm (findUndefinedNodes (fun i => (defs[i]?).getD none) order1) :=
      (h1'.trans h1.symm).filter _
    rw [hund] at this
    exact this.eq_nil
  unfold compile
  rw [htt]
  dsimp only
  rw [hund']
  dsimp only
  rw [hbs, unused_mono (Nat.le_trans (Nat.le_max_right _ _) hf) hun, bindRun_done]
  refine ⟨_, rfl, ?_⟩
  dsimp only
  rw [hN fuel' (Nat.le_trans (Nat.le_max_left _ _) hf), bindRun_done]
  refine ⟨_, rfl, ?_⟩
  dsimp only
  rw [hb, orPanic_done]
  refine ⟨_, rfl, ?_⟩
  dsimp only
  rw [recursions_mono (Nat.le_trans (Nat.le_max_right _ _) hf) hrec, bindRun_done]
  refine ⟨_, rfl, ?_⟩
  dsimp only
  rw [has, orPanic_done]
  refine ⟨_, rfl, ?_⟩
  rw [hg, orPanic_done]
  refine ⟨_, rfl, ?_⟩
  cases g
  simp only at hts
  rw [hts]

/-- Same errors up to the order of listed nodes. -/
def SameErr : CompileErr → CompileErr → Prop
  | .tokenTypes a, .tokenTypes b => a = b
  | .undefinedNodes a, .undefinedNodes b => a.Perm b
  | .unusedNodes a, .unusedNodes b => a = b
  | .unresolved a, .unresolved b => a.Perm b
  | .recursion a, .recursion b => a = b
  | _, _ => False

/-- C70, partial: if node definitions are rejected with some iteration orders then with any other orders the error is the same up to the
order of nodes listed in the error. Missing: the order of nodes is not the same, see `C70_message_order`. -/
theorem C70_errors_partial {upper : List Nat → List Nat} {find : Nat → List Nat → List Nat} {ts : List GToken} {defs : List (Option Chunk)}
    (hwf : ∀ c, some c ∈ defs → WF c) (hdef : ∀ c, some c ∈ defs → ∀ j ∈ refs c, j < defs.length)
    {order1 order2 order3 order1' order2' order3' : List Nat}
    (h1 : order1.Perm (List.range defs.length)) (h2 : order2.Perm (List.range defs.length)) (h3 : order3.Perm (List.range defs.length))
    (h1' : order1'.Perm (List.range defs.length)) (h2' : order2'.Perm (List.range defs.length)) (h3' : order3'.Perm (List.range defs.length))
    {fuel : Nat} {e : CompileErr} (h : compile upper find ts defs order1 order2 order3 fuel = .done (.error e)) :
    ∃ N, ∀ fuel', N ≤ fuel' → ∃ e', compile upper find ts defs order1' order2' order3' fuel' = .done (.error e') ∧ SameErr e e' := by
  have hperm : (findUndefinedNodes (fun i => (defs[i]?).getD none) order1).Perm (findUndefinedNodes (fun i => (defs[i]?).getD none) order1') :=
    (h1.trans h1'.symm).filter _
  unfold compile at h
  split at h
  · rename_i name htt
    cases h
    refine ⟨0, fun fuel' _ => ⟨.tokenTypes name, ?_, rfl⟩⟩
    unfold compile
    rw [htt]
  · rename_i ttypes htt
    split at h
    · rename_i i is hund
      cases h
      rw [hund] at hperm
      refine ⟨0, fun fuel' _ => ⟨.undefinedNodes (findUndefinedNodes (fun i => (defs[i]?).getD none) order1'), ?_, hperm⟩⟩
      unfold compile
      rw [htt]
      dsimp only
      cases hu : findUndefinedNodes (fun i => (defs[i]?).getD none) order1' with
      | nil => rw [hu] at hperm; exact absurd hperm.eq_nil (by simp)
      | cons j js => rfl
    · rename_i hund
      rw [hund] at hperm
      have hund' := hperm.symm.eq_nil
      have hall := fetched_all h1 hund
      generalize hbs : defs.filterMap id = bodies at *
      have hlen : defs.length = bodies.length := by rw [hall]; simp
      rw [hlen] at h2 h3 h2' h3'
      have hmem : ∀ c, c ∈ bodies → some c ∈ defs := fun c hc => by rw [hall]; exact List.mem_map_of_mem hc
      dsimp only at h
      rw [bindRun_done] at h
      obtain ⟨unused, hun, h⟩ := h
      split at h
      · rename_i i is
        cases h
        refine ⟨fuel, fun fuel' hf => ⟨.unusedNodes (i :: is), ?_, rfl⟩⟩
        unfold compile
        rw [htt]
        dsimp only
        rw [hund']
        dsimp only
        rw [hbs, unused_mono hf hun, bindRun_done]
        exact ⟨_, rfl, rfl⟩
      · rw [bindRun_done] at h
        obtain ⟨r, hres, h⟩ := h
        have hmem' : ∀ i < bodies.length, (bodies[i]?).getD .eoi ∈ bodies := by
          intro i hi
          rw [List.getElem?_eq_getElem hi]
          exact List.getElem_mem hi
        split at h
        · rename_i l
          cases h
          obtain ⟨N1, hN1⟩ := C24_first_sets (fun i => (bodies[i]?).getD .eoi) (fun i => ((bodies[i]?).getD .eoi).nodes) bodies.length
            order2 order3 (fun i hi => hwf _ (hmem _ (hmem' i hi))) (fun i hi => nodes_eq _) (fun i hi => hlen ▸ hdef _ (hmem _ (hmem' i hi))) h2 h3
          obtain ⟨r, hr, hv⟩ := hN1 (max N1 fuel) (Nat.le_max_left _ _)
          rw [resolve_mono (Nat.le_max_right N1 fuel) hres] at hr
          cases hr
          obtain ⟨N, hN⟩ := C24_first_sets (fun i => (bodies[i]?).getD .eoi) (fun i => ((bodies[i]?).getD .eoi).nodes) bodies.length
            order2' order3' (fun i hi => hwf _ (hmem _ (hmem' i hi))) (fun i hi => nodes_eq _) (fun i hi => hlen ▸ hdef _ (hmem _ (hmem' i hi))) h2' h3'
          refine ⟨max N fuel, fun fuel' hf => ?_⟩
          obtain ⟨r', hr', hv'⟩ := hN fuel' (Nat.le_trans (Nat.le_max_left _ _) hf)
          obtain ⟨hne, hnd, hv⟩ := hv
          cases r' with
          | ok ft =>
            obtain ⟨i, hi⟩ := List.exists_mem_of_ne_nil _ hne
            obtain ⟨hi, hno⟩ := (hv i).1 hi
            obtain ⟨k, hk⟩ := hv'.2.1 i hi
            exact absurd ((hv'.1 i hi k).1 hk) (hno k)
          | error l' =>
            obtain ⟨hne', hnd', hv'⟩ := hv'
            refine ⟨.unresolved l', ?_, (List.perm_ext_iff_of_nodup hnd hnd').2 fun i => by rw [hv, hv']⟩
            unfold compile
            rw [htt]
            dsimp only
            rw [hund']
            dsimp only
            rw [hbs, unused_mono (Nat.le_trans (Nat.le_max_right _ _) hf) hun, bindRun_done]
            refine ⟨_, rfl, ?_⟩
            dsimp only
            rw [hr', bindRun_done]
            exact ⟨_, rfl, rfl⟩
        · rename_i ft
          obtain ⟨⟨pr, fs⟩, hb, h⟩ := orPanic_done.mp h
          rw [bindRun_done] at h
          obtain ⟨rec, hrec, h⟩ := h
          split at h
          · rename_i i is
            cases h
            obtain ⟨N, hN⟩ := resolve_same (fun c hc => hwf c (hmem c hc)) (fun c hc => hlen ▸ hdef c (hmem c hc)) h2 h3 h2' h3' hres
            refine ⟨max N fuel, fun fuel' hf => ⟨.recursion (i :: is), ?_, rfl⟩⟩
            unfold compile
            rw [htt]
            dsimp only
            rw [hund']
            dsimp only
            rw [hbs, unused_mono (Nat.le_trans (Nat.le_max_right _ _) hf) hun, bindRun_done]
            refine ⟨_, rfl, ?_⟩
            dsimp only
            rw [hN fuel' (Nat.le_trans (Nat.le_max_left _ _) hf), bindRun_done]
            refine ⟨_, rfl, ?_⟩
            dsimp only
            rw [hb, orPanic_done]
            refine ⟨_, rfl, ?_⟩
            dsimp only
            rw [recursions_mono (Nat.le_trans (Nat.le_max_right _ _) hf) hrec, bindRun_done]
            exact ⟨_, rfl, rfl⟩
          · obtain ⟨pr', has, h⟩ := orPanic_done.mp h
            obtain ⟨r, hr, h⟩ := orPanic_done.mp h
            cases h

/-- C70 does not hold for messages: nodes are listed in an error in the order of a map. -/
theorem C70_message_order : ∃ (defs : List (Option Chunk)) (o o' : List Nat), o.Perm (List.range defs.length) ∧ o'.Perm (List.range defs.length) ∧
    compile id (fun _ => id) [] defs o o o 10 = .done (.error (.undefinedNodes [1, 2])) ∧
    compile id (fun _ => id) [] defs o' o' o' 10 = .done (.error (.undefinedNodes [2, 1])) :=
  ⟨[some (.group [.node 1, .node 2] false false), none, none], [0, 1, 2], [0, 2, 1], by decide, by decide, rfl, rfl⟩

/-! ## Grammars of the examples -/

/-- `FindString` of expressions of the calculator for texts of literals. -/
def calcFind (re text : List Nat) : List Nat :=
  match text with
  | [c] => if (re = bytesOf "[(),=*\\/^+-]" ∧ c ∈ [40, 41, 44, 61, 42, 47, 94, 43, 45]) ∨ (re = bytesOf "-" ∧ c = 45) then text else []
  | _ => []

/-- `FindString` of expressions of the configuration editor for texts of literals. -/
def confFind (re text : List Nat) : List Nat :=
  if re = bytesOf "[\\[\\]=]" then
    match text with
    | [c] => if c ∈ [91, 93, 61] then text else []
    | _ => []
  else if re = bytesOf "\\S[^\\n#]*" then text else []

/-- `FindString` of expressions of the style checker for texts of literals. -/
def styleFind (re text : List Nat) : List Nat :=
  if re = bytesOf "[{}\\[\\],;]" then
    match text with
    | [c] => if c ∈ [91, 93, 123, 125, 44, 59] then text else []
    | _ => []
  else if re = bytesOf "[A-Za-z_][A-Za-z_0-9]*" then
    match text with
    | [] => []
    | c :: _ => if 97 ≤ c ∧ c ≤ 122 then text else []
  else []

/-- The text of the generated file. -/
def generated (find : List Nat → List Nat → List Nat) (order : List Nat) (inp : List (Except LErr LTok)) : Option (List Nat) :=
  match langParse id find (fun _ => true) order order order 1000 inp with
  | .done (.ok p) =>
    match LlxGen.makeGo (fun _ => true) (bytesOf "internal") [] [] p with
    | some (.ok text) => some text
    | _ => none
  | _ => none

/-- The generated grammar of the calculator is what `llxgen grammar.llx` makes, byte by byte. -/
example : generated calcFind (List.range 8) Examples.calcDescription = some (Examples.textOf Examples.calcLines) := by decide +kernel

/-- The same for the configuration editor. -/
example : generated confFind [5, 0, 4, 1, 3, 2] Examples.confDescription = some (Examples.textOf Examples.confLines) := by decide +kernel

/-- The same for the style checker. -/
example : generated styleFind (List.range 8).reverse Examples.styleDescription = some (Examples.textOf Examples.styleLines) := by decide +kernel

end Verif.Props
