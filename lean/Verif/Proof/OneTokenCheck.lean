/-
A check for grammars in which one token is enough to choose a rule.
-/
import Verif.Proof.Calm
import Verif.Spec.OneToken

namespace Verif.Proof

open Verif.Model Verif.Spec

/-- Nodes of states, keys that may come in states and after nodes. -/
structure Cert where
  node : List Nat
  next : List (List Int)
  after : List (List Int)

def Cert.nodeOf (c : Cert) (s : Nat) : Nat := c.node.getD s 0
def Cert.nextOf (c : Cert) (s : Nat) : List Int := c.next.getD s []
def Cert.afterOf (c : Cert) (i : Nat) : List Int := c.after.getD i []
def Cert.comes (c : Cert) (s : Int) (i : Nat) : List Int := if s = finalState then c.afterOf i else c.nextOf s.toNat

/-- Keys of rules. -/
def ruleKeys (g : Grammar) : List Int := g.tables.rules.map (·.token)

/-- A key of a literal. -/
def literalKey (g : Grammar) (k : Int) : Bool := decide (0 ≤ k) && (g.tokens[k.toNat]?).any (·.flags.literal)

/-- A check for `Predicts`. -/
def predictsCheck (g : Grammar) (c : Cert) : Bool :=
  let m := tableOf g
  ((List.range g.tables.states.length).all fun s =>
    ((ruleKeys g).all fun k => decide (k = anyToken) || (m s k).isEmpty || (c.nextOf s).contains k) &&
    ((m s anyToken).all fun r => (c.comes r.state (c.nodeOf s)).all fun k => (c.nextOf s).contains k) &&
    (ruleKeys g).all fun k => (m s k).all fun r =>
      (decide (r.node < 0) || (c.comes r.state (c.nodeOf s)).all fun k => (c.afterOf r.node.toNat).contains k) &&
      (decide (r.state < 0) || decide (c.nodeOf r.state.toNat = c.nodeOf s))) &&
  (c.afterOf rootNode).contains eoiTokenType &&
  (List.range g.firsts.length).all fun i => decide (c.nodeOf ((g.firsts[i]?).getD 0) = i)

/-- A check for `OneToken`. -/
def oneTokenCheck (g : Grammar) (c : Cert) (also : Int → List Int) : Bool :=
  let m := tableOf g
  (List.range g.tables.states.length).all fun s =>
    ((ruleKeys g).all fun k => decide ((m s k).length ≤ 1)) &&
    ((m s anyToken).all fun r => (c.comes r.state (c.nodeOf s)).all fun k =>
      (m s k).isEmpty && (also k).all fun k' => (m s k').isEmpty) &&
    (ruleKeys g).all fun k => (m s k).isEmpty || (also k).all fun k' => !(literalKey g k') || (m s k').isEmpty

/-- One step of a search for nodes of states. -/
def stepNodes (g : Grammar) (l : List Nat) : List Nat :=
  (List.range g.tables.states.length).foldl (fun l s => (ruleKeys g).foldl (fun l k => (tableOf g s k).foldl (fun l r =>
    if 0 ≤ r.state then l.set r.state.toNat (l.getD s 0) else l) l) l) l

/-- One step of a search for keys to come. -/
def stepKeys (g : Grammar) (c : Cert) : Cert :=
  (List.range g.tables.states.length).foldl (fun c s => (ruleKeys g).dedup.foldl (fun c k => (tableOf g s k).foldl (fun c r =>
    let come := c.comes r.state (c.nodeOf s)
    let c := { c with next := c.next.set s ((c.nextOf s).union (if k = anyToken then come else [k])) }
    if 0 ≤ r.node then { c with after := c.after.set r.node.toNat ((c.afterOf r.node.toNat).union come) } else c) c) c) c

/-- Keys found by some number of steps. -/
def certOf (g : Grammar) (n : Nat) : Cert :=
  let node0 := g.firsts.zipIdx.foldl (fun l x => l.set x.1 x.2) (List.replicate g.tables.states.length 0)
  let c0 : Cert := ⟨(stepNodes g)^[n] node0, List.replicate g.tables.states.length [],
    (List.replicate g.firsts.length []).set rootNode [eoiTokenType]⟩
  (stepKeys g)^[n] c0

variable {g : Grammar}

theorem tableOf_lt {s : Nat} {k : Int} (h : tableOf g s k ≠ []) : s < g.tables.states.length := by
  by_contra hc
  unfold tableOf at h
  rw [List.getElem?_eq_none (by omega)] at h
  exact h rfl

theorem tableOf_key (hm : Means g.tables (tableOf g)) {s : Nat} {k : Int} (h : tableOf g s k ≠ []) : k ∈ ruleKeys g := by
  obtain ⟨r, hr⟩ := List.exists_mem_of_ne_nil _ h
  have hs := tableOf_lt h
  refine List.mem_map.mpr ⟨r, ?_, hm.token s k r hr⟩
  have h1 := hm.find s _ (List.getElem?_eq_getElem hs) [k]
  refine findRulesBy_mem h1 ?_
  unfold firstRules
  simpa [h] using hr

theorem cert_comes (c : Cert) (s : Int) (i : Nat) (k : Int) :
    comes (fun s k => k ∈ c.nextOf s) (fun i k => k ∈ c.afterOf i) s i k ↔ k ∈ c.comes s i := by
  unfold comes Cert.comes
  split <;> rfl

theorem predicts_of_check (hm : Means g.tables (tableOf g)) {c : Cert} (h : predictsCheck g c = true) :
    Predicts g (tableOf g) c.nodeOf (fun s k => k ∈ c.nextOf s) (fun i k => k ∈ c.afterOf i) := by
  rw [predictsCheck] at h
  simp only [Bool.and_eq_true] at h
  obtain ⟨⟨h1, h2⟩, h3⟩ := h
  have hs : ∀ s < g.tables.states.length, _ := fun s hs => List.all_eq_true.mp h1 s (List.mem_range.mpr hs)
  simp only [Bool.and_eq_true] at hs
  refine ⟨fun s k hk hne => ?_, fun s r hr k hk => ?_, fun s k r n hr hn k' hk' => ?_, by simpa using h2, fun i f hf => ?_,
    fun s k r s' hr hs' => ?_⟩
  · have := List.all_eq_true.mp (hs s (tableOf_lt hne)).1.1 k (tableOf_key hm hne)
    simpa [hk, hne] using this
  · rw [cert_comes] at hk
    have := List.all_eq_true.mp (List.all_eq_true.mp (hs s (tableOf_lt (List.ne_nil_of_mem hr))).1.2 r hr) k hk
    simpa using this
  · rw [cert_comes] at hk'
    have hne := List.ne_nil_of_mem hr
    have := List.all_eq_true.mp (List.all_eq_true.mp (hs s (tableOf_lt hne)).2 k (tableOf_key hm hne)) r hr
    rw [Bool.and_eq_true, Bool.or_eq_true, decide_eq_true_eq] at this
    have := List.all_eq_true.mp (this.1.resolve_left (by omega)) k' hk'
    rw [hn] at this
    simpa using this
  · have hi := (List.getElem?_eq_some_iff.mp hf).1
    have := List.all_eq_true.mp h3 i (List.mem_range.mpr hi)
    rw [hf] at this
    simpa using this
  · have hne := List.ne_nil_of_mem hr
    have := List.all_eq_true.mp (List.all_eq_true.mp (hs s (tableOf_lt hne)).2 k (tableOf_key hm hne)) r hr
    rw [Bool.and_eq_true, Bool.or_eq_true (a := decide (r.state < 0)), decide_eq_true_eq, decide_eq_true_eq] at this
    have := this.2.resolve_left (by omega)
    rw [hs'] at this
    simpa using this

theorem oneToken_of_check (hm : Means g.tables (tableOf g)) {c : Cert} {al : Int → List Int} {also : Int → Int → Prop}
    (hal : ∀ k k', also k k' → k' ∈ al k) (h : oneTokenCheck g c al = true) :
    OneToken g (tableOf g) c.nodeOf (fun s k => k ∈ c.nextOf s) (fun i k => k ∈ c.afterOf i) also := by
  rw [oneTokenCheck] at h
  have hs : ∀ s < g.tables.states.length, _ := fun s hs => List.all_eq_true.mp h s (List.mem_range.mpr hs)
  simp only [Bool.and_eq_true] at hs
  refine ⟨fun s k => ?_, fun s r hr k hk => ?_, fun s k k' hne h1 h2 => ?_⟩
  · by_cases hne : tableOf g s k = []
    · rw [hne]; simp
    · exact decide_eq_true_eq.mp (List.all_eq_true.mp (hs s (tableOf_lt hne)).1.1 k (tableOf_key hm hne))
  · rw [cert_comes] at hk
    have := List.all_eq_true.mp (List.all_eq_true.mp (hs s (tableOf_lt (List.ne_nil_of_mem hr))).1.2 r hr) k hk
    rw [Bool.and_eq_true, List.isEmpty_iff] at this
    refine ⟨this.1, fun k' hk' => ?_⟩
    have := List.all_eq_true.mp this.2 k' (hal k k' hk')
    rwa [List.isEmpty_iff] at this
  · have := List.all_eq_true.mp (hs s (tableOf_lt hne)).2 k (tableOf_key hm hne)
    rw [Bool.or_eq_true, List.isEmpty_iff] at this
    have := List.all_eq_true.mp (this.resolve_left hne) k' (hal k k' h1)
    rw [Bool.or_eq_true, List.isEmpty_iff] at this
    refine this.resolve_left ?_
    obtain ⟨h3, t, h4, h5⟩ := h2
    simp [literalKey, h3, h4, h5]

end Verif.Proof
