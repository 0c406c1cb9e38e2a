/-
The machines of all nodes of a grammar.
-/
import Verif.Proof.ChunkComplete

namespace Verif.Model

open Verif.Spec Verif.Spec.Ebnf PR
open scoped Computability

/-- What `buildNodes` does, node by node. -/
theorem buildNodes_spec (ft : Nat → Finset Int) (cs : List Chunk) (hc : ∀ c ∈ cs, WF c) {pr : PR} (h : pr.Ok) :
    ∃ pr' fs, buildNodes ft cs pr = some (pr', fs) ∧ Grown (fun x => pr.states.length ≤ x) pr pr' ∧
      fs.length = cs.length ∧
      ∀ (i : Nat) (c : Chunk) (s : Nat), cs[i]? = some c → fs[i]? = some s → ∃ p q : PR, p.Ok ∧ pr.states.length ≤ p.states.length ∧
        s = p.states.length ∧ c.build ft p.addState s finalState = some q ∧ s < q.states.length ∧
        Grown (fun x => q.states.length ≤ x) q pr' := by
  induction cs generalizing pr with
  | nil => exact ⟨pr, [], rfl, Grown.refl h, rfl, by simp⟩
  | cons c cs ih =>
    have hl := addState_length pr
    obtain ⟨q, heq, hg⟩ := Chunk.build_grown ft c (hc c (by simp)) (addState_ok h) (s := pr.states.length)
      (t := finalState) (by omega) (le_refl _) (by unfold finalState; omega)
    have hgl := hg.len
    obtain ⟨pr', fs, he, hg', hfl, hall⟩ := ih (fun c hc' => hc c (by simp [hc'])) hg.ok
    have hgl' := hg'.len
    refine ⟨pr', pr.states.length :: fs, ?_, ?_, by simp [hfl], ?_⟩
    · rw [buildNodes, heq, Option.bind_some, he]; rfl
    · have h1 : Grown (fun x => pr.states.length ≤ x) pr pr.addState :=
        ⟨addState_ok h, by omega, fun j k hj => by rw [addState_rules], fun j k _ => by rw [addState_rules]⟩
      exact (h1.trans (hg.weaken fun x hx => by omega)).trans (hg'.weaken fun x hx => by omega)
    · intro i c' s hci hsi
      cases i with
      | zero =>
        simp only [List.getElem?_cons_zero, Option.some.injEq] at hci hsi
        subst hci hsi
        exact ⟨pr, q, h, le_refl _, rfl, heq, by omega, hg'⟩
      | succ i =>
        simp only [List.getElem?_cons_succ] at hci hsi
        obtain ⟨p, q', hp, hpl, hs, hb, hlt, hgr⟩ := hall i c' s hci hsi
        exact ⟨p, q', hp, by omega, hs, hb, hlt, hgr⟩

theorem buildNodes_sound (ft : Nat → Finset Int) (hft : ∀ i, ∀ k ∈ ft i, 0 ≤ k) (cs : List Chunk)
    (hc : ∀ c ∈ cs, WF c) (hlo : ∀ c ∈ cs, LoopOk true c) {pr : PR} (h : pr.Ok)
    (D : Int → Language Sym) (hf : D finalState = 1) (hD : ∀ j, SoundAt pr D j)
    {pr' : PR} {fs : List Nat} (he : buildNodes ft cs pr = some (pr', fs)) :
    ∃ D' : Int → Language Sym, (∀ x : Int, x < pr.states.length → D' x = D x) ∧ (∀ j, SoundAt pr' D' j) ∧
      ∀ (i : Nat) (c : Chunk) (s : Nat), cs[i]? = some c → fs[i]? = some s → D' s = lang c := by
  induction cs generalizing pr D fs with
  | nil =>
    rw [buildNodes] at he
    cases he
    exact ⟨D, fun _ _ => rfl, hD, by simp⟩
  | cons c cs ih =>
    have hl := addState_length pr
    obtain ⟨q, heq, hg⟩ := Chunk.build_grown ft c (hc c (by simp)) (addState_ok h) (s := pr.states.length)
      (t := finalState) (by omega) (le_refl _) (by unfold finalState; omega)
    have hgl := hg.len
    obtain ⟨p', fs', he', hg', hfl, _⟩ := buildNodes_spec ft cs (fun c hc' => hc c (by simp [hc'])) hg.ok
    rw [buildNodes, heq, Option.bind_some, he'] at he
    simp only [Option.map_some, Option.some.injEq, Prod.mk.injEq] at he
    obtain ⟨rfl, rfl⟩ := he
    let D1 : Int → Language Sym := Function.update D pr.states.length (lang c)
    have hD1 : ∀ x : Int, x < pr.states.length → D1 x = D x :=
      fun x hx => Function.update_of_ne (by omega) _ _
    have hD1f : D1 finalState = 1 := by rw [hD1 _ (by unfold finalState; omega)]; exact hf
    have hD1s : D1 pr.states.length = lang c := Function.update_self ..
    have hs1 : ∀ j, SoundAt pr.addState D1 j := by
      intro j
      exact (hD j).congr h (fun k => by rw [addState_rules]) hD1
    obtain ⟨D2, hD2, hs2, hn2⟩ := Chunk.build_sound ft hft c (hc c (by simp)) true (hlo c (by simp)) (addState_ok h)
      (s := pr.states.length) (t := finalState) (by omega) (le_refl _) (by unfold finalState; omega) D1
      (hs1 _) (by rw [hD1f, hD1s, mul_one]) (fun _ => by rw [hD1f, hD1s, mul_one]) heq
    have hall2 : ∀ j, SoundAt q D2 j := by
      intro j
      by_cases h1 : pr.addState.states.length ≤ j
      · exact hn2 j h1
      · by_cases h2 : j = pr.states.length
        · subst h2; exact hs2
        · exact (hs1 j).congr (addState_ok h) (fun k => hg.other j k (by omega)) hD2
    obtain ⟨D3, hD3, hs3, hn3⟩ := ih (fun c hc' => hc c (by simp [hc'])) (fun c hc' => hlo c (by simp [hc'])) hg.ok D2
      (by rw [hD2 _ (by unfold finalState; omega)]; exact hD1f) hall2 he'
    refine ⟨D3, ?_, hs3, ?_⟩
    · intro x hx
      rw [hD3 x (by omega), hD2 x (by omega), hD1 x hx]
    · intro i c' s hci hsi
      cases i with
      | zero =>
        simp only [List.getElem?_cons_zero, Option.some.injEq] at hci hsi
        subst hci hsi
        rw [hD3 _ (by omega), hD2 _ (by omega), hD1s]
      | succ i =>
        simp only [List.getElem?_cons_succ] at hci hsi
        exact hn3 i c' s hci hsi

theorem ok_empty : PR.Ok ({} : PR) :=
  ⟨by simp, by simp, by simp [PR.rules], by simp [PR.rules], by simp [PR.rules]⟩

/-- Node bodies: an unconditional sequence. -/
def IsBody : Chunk → Prop
  | .group _ opt rep => opt = false ∧ rep = false
  | _ => False

theorem body_follows (ft : Nat → Finset Int) (hft : ∀ i, ∀ k ∈ ft i, 0 ≤ k) (c : Chunk) (hc : WF c)
    (hb : IsBody c) (hne : NoEoi c) (hrf : ∀ i ∈ refs c, (ft i).Nonempty) {m : Table} {p q : PR} (hp : p.Ok)
    {s : Nat} (hs : s = p.states.length) (he : c.build ft p.addState s finalState = some q)
    (hm : ∀ x k, s ≤ x → x < q.states.length → m x k = q.rules x k) {w : List Sym} (hw : w ∈ lang c) :
    (w = [] → Accepts m s w) ∧ (w ≠ [] → Follows m s w) := by
  have hl := addState_length p
  have hfin : finalState ≤ finalState := le_refl _
  have hfin2 : finalState < (p.addState.states.length : Int) := by unfold finalState; omega
  obtain ⟨q', heq, hg⟩ := Chunk.build_grown ft c hc (addState_ok hp) (s := s) (by omega) hfin hfin2
  rw [he] at heq
  cases heq
  have hgl := hg.len
  have hleads := Chunk.build_leads ft hft c hc hne hrf (m := m) (addState_ok hp) (by omega) hfin hfin2 he
    (fun k r _ hmm => by rw [hm s k (le_refl _) (by omega)]; exact hmm)
    (fun x k hx hx' => hm x k (by omega) hx')
  have hnil : c.isOptional = true → Accepts m s [] := by
    intro ho
    cases c with
    | group cs opt rep =>
      obtain ⟨rfl, rfl⟩ := hb
      rw [WF] at hc
      rw [Chunk.isOptional] at ho
      have ho : Chunk.allOptional cs = true := by simpa using ho
      rw [Chunk.build] at he
      have hcl : 0 < cs.length := List.length_pos_of_ne_nil hc.1
      have hnem : cs.isEmpty = false := by
        cases cs with
        | nil => simp at hcl
        | cons => rfl
      simp only [Bool.false_eq_true, false_and, if_false, hnem] at he
      have h0 : (addStates (cs.length - 1) p.addState).states.length = p.states.length + 1 + (cs.length - 1) := by
        rw [addStates_length, hl]
      have hok0 := addStates_ok (cs.length - 1) (addState_ok hp)
      generalize addStates (cs.length - 1) p.addState = p0 at he h0 hok0
      obtain ⟨p1, hep, hg1⟩ := Chunk.buildSeq_grown ft cs hc.2.2 hok0 (s := s)
        (j := p.addState.states.length) (tail := finalState) (by omega) (by omega) hfin (by omega)
      have hgl1 := hg1.len
      rw [hep, Option.bind_some] at he
      have hany := closeSeq_any cs hc.1 ho hg1.ok (s := s) (j := p.addState.states.length) (tail := finalState)
        (by omega) (by omega) (by omega) hfin (by unfold finalState; omega) he
      refine Accepts.skip (k := anyToken) (r := ⟨anyToken, finalState, sameNode⟩) ?_ (by simp [Rule.reads, anyToken])
        Accepts.final
      rw [hm s _ (le_refl _) (by omega), hany]
      exact List.mem_singleton_self _
    | _ => exact hb.elim
  refine ⟨fun hw0 => ?_, fun hw0 => ?_⟩
  · subst hw0
    exact hnil (optional_of_nil hc hw)
  · have := hleads w.length 1 (fun u hu _ => by
        rw [(Language.mem_one u).mp hu]; exact Accepts.final)
      (fun ho u hu _ => by rw [(Language.mem_one u).mp hu]; exact hnil ho) w hw hw0 [] (Language.nil_mem_one) (by simp)
    simpa using this

theorem body_accepts (ft : Nat → Finset Int) (hft : ∀ i, ∀ k ∈ ft i, 0 ≤ k) (c : Chunk) (hc : WF c)
    (hb : IsBody c) (hne : NoEoi c) (hrf : ∀ i ∈ refs c, (ft i).Nonempty) {m : Table} {p q : PR} (hp : p.Ok)
    {s : Nat} (hs : s = p.states.length) (he : c.build ft p.addState s finalState = some q)
    (hm : ∀ x k, s ≤ x → x < q.states.length → m x k = q.rules x k) {w : List Sym} (hw : w ∈ lang c) :
    Accepts m s w := by
  obtain ⟨h1, h2⟩ := body_follows ft hft c hc hb hne hrf hp hs he hm hw
  by_cases hw0 : w = []
  · exact h1 hw0
  · exact (h2 hw0).accepts

end Verif.Model
