/-
Described token sequences as runs of the node machines with a stack.
-/
import Verif.Proof.Sound
import Verif.Proof.TreeFollow
import Verif.Spec.OneToken

namespace Verif.Proof

open Verif.Model Verif.Spec

variable {g : Grammar} {m : Table} {heads : Nat → Int → Prop}

/-- The key of the next token; the last one is the end of input. -/
def nextKey : List (Token × Nat) → Int
  | [] => eoiTokenType
  | (_, k) :: _ => k

/-- A run of the machines: open nodes, tokens to come with their keys, and the content of the root node at the end. -/
inductive Way (g : Grammar) (m : Table) : List Part → List (Token × Nat) → List Item → Prop
  | done {i : Nat} {st : Option Token} {its : List Item} : Way g m [⟨finalState, i, st, its⟩] [] its
  | pop {i : Nat} {st : Option Token} {its : List Item} {q : Part} {rest : List Part} {ks : List (Token × Nat)} {T : List Item} :
      Way g m ({ q with items := q.items ++ [.node i st its] } :: rest) ks T → Way g m (⟨finalState, i, st, its⟩ :: q :: rest) ks T
  | skip {s : Nat} {r : Rule} {i : Nat} {st : Option Token} {its : List Item} {rest : List Part} {ks : List (Token × Nat)} {T : List Item} :
      r ∈ m s anyToken → r.node = sameNode → Way g m (⟨r.state, i, st, its⟩ :: rest) ks T → Way g m (⟨s, i, st, its⟩ :: rest) ks T
  | read {s : Nat} {t : Token} {k : Nat} {r : Rule} {i : Nat} {st : Option Token} {its : List Item} {rest : List Part}
      {ks : List (Token × Nat)} {T : List Item} : r ∈ m s k → r.node = sameNode →
      Way g m (⟨r.state, i, st, its ++ [.tok t]⟩ :: rest) ks T → Way g m (⟨s, i, st, its⟩ :: rest) ((t, k) :: ks) T
  | push {s : Nat} {t : Token} {k : Nat} {r : Rule} {n f : Nat} {i : Nat} {st : Option Token} {its : List Item} {rest : List Part}
      {ks : List (Token × Nat)} {T : List Item} : r ∈ m s k → r.node = (n : Int) → g.firsts[n]? = some f →
      Way g m (⟨f, n, some t, []⟩ :: ⟨r.state, i, st, its⟩ :: rest) ((t, k) :: ks) T → Way g m (⟨s, i, st, its⟩ :: rest) ((t, k) :: ks) T

/-- A key that can start a symbol. -/
def HeadOf (heads : Nat → Int → Prop) : Sym → Int → Prop
  | .tok j, k => k = j
  | .eoi, _ => False
  | .node n, k => heads n k

theorem reads_none {r : Rule} (h : Rule.reads r = none) : r.node = sameNode ∧ r.token = anyToken := by
  unfold Rule.reads at h
  split at h
  · split at h
    · exact ⟨by assumption, by assumption⟩
    · split at h <;> cases h
  · cases h

theorem way_nil (ho : Opens g m heads) {s : Int} {w : List Sym} (h : Accepts m s w) : w = [] → ∀ (i : Nat) (st : Option Token)
    (its : List Item) (rest : List Part) (ks : List (Token × Nat)) (T : List Item), Way g m (⟨finalState, i, st, its⟩ :: rest) ks T →
    Way g m (⟨s, i, st, its⟩ :: rest) ks T := by
  induction h with
  | final => intro _ i st its rest ks T hw; exact hw
  | skip hr h1 h2 ih =>
    intro h0 i st its rest ks T hw
    have h3 := reads_none h1
    have := ho.token _ _ _ hr
    rw [h3.2] at this
    subst this
    exact .skip hr h3.1 (ih h0 i st its rest ks T hw)
  | read => intro h; cases h

/-- Skipped rules before the first symbol. -/
theorem accepts_split (ho : Opens g m heads) {s : Int} {v : List Sym} (h : Accepts m s v) : ∀ {x : Sym} {w : List Sym}, v = x :: w →
    ∃ (s1 : Nat) (k : Int) (r : Rule), r ∈ m s1 k ∧ Rule.reads r = some x ∧ Accepts m r.state w ∧
      ∀ (i : Nat) (st : Option Token) (its : List Item) (rest : List Part) (ks : List (Token × Nat)) (T : List Item),
        Way g m (⟨s1, i, st, its⟩ :: rest) ks T → Way g m (⟨s, i, st, its⟩ :: rest) ks T := by
  induction h with
  | final => intro x w h; cases h
  | skip hr h1 h2 ih =>
    intro x w hv
    obtain ⟨s1, k, r, h3, h4, h5, h6⟩ := ih hv
    have h7 := reads_none h1
    have := ho.token _ _ _ hr
    rw [h7.2] at this
    subst this
    exact ⟨s1, k, r, h3, h4, h5, fun i st its rest ks T hw => .skip hr h7.1 (h6 i st its rest ks T hw)⟩
  | read hr h1 h2 ih =>
    intro x w hv
    cases hv
    exact ⟨_, _, _, hr, h1, h2, fun i st its rest ks T hw => hw⟩

/-- A token sequence and its ordinary tokens with keys. -/
inductive KeyedBy (R : Token → Nat → Prop) (skipped : Token → Prop) : List Token → List (Token × Nat) → Prop
  | nil : KeyedBy R skipped [] []
  | side {t ts ks} : skipped t → KeyedBy R skipped ts ks → KeyedBy R skipped (t :: ts) ks
  | tok {t k ts ks} : R t k → KeyedBy R skipped ts ks → KeyedBy R skipped (t :: ts) ((t, k) :: ks)

theorem KeyedBy.append {R : Token → Nat → Prop} {skipped : Token → Prop} {ts ts' : List Token} {ks ks' : List (Token × Nat)}
    (h : KeyedBy R skipped ts ks) (h' : KeyedBy R skipped ts' ks') : KeyedBy R skipped (ts ++ ts') (ks ++ ks') := by
  induction h with
  | nil => exact h'
  | side h1 _ ih => exact .side h1 ih
  | tok h1 _ ih => exact .tok h1 ih

/-- A described tree without empty nested nodes gives a run. -/
theorem way_of_spells (ho : Opens g m heads) {R : Token → Nat → Prop} {rel : Sym → Token → Prop} {side : Token → Prop}
    (hrel : ∀ x t, rel x t → ∃ k : Nat, x = .tok k ∧ R t k ∧ g.isSideType t.type = false) (hside : ∀ t, side t → g.isSideType t.type = true)
    {w : List Sym} {items : List Item}
    (h : Spells rel side (fun i u => u ≠ [] ∧ ∃ f : Nat, g.firsts[i]? = some f ∧ Accepts m f u) w items) :
    ∃ ks, KeyedBy R side (leavesOf items) ks ∧ leavesOf (dropSides g items) = ks.map (·.1) ∧ ∀ (s : Int), Accepts m s w →
      (∀ x w', w = x :: w' → ∃ t k ks', ks = (t, k) :: ks' ∧ HeadOf heads x (k : Nat)) ∧
      ∀ (i : Nat) (st : Option Token) (its : List Item) (rest : List Part) (ks' : List (Token × Nat)) (T : List Item),
        Way g m (⟨finalState, i, st, its ++ started (dropSides g items)⟩ :: rest) ks' T → Way g m (⟨s, i, st, its⟩ :: rest) (ks ++ ks') T := by
  induction h with
  | nil =>
    refine ⟨[], .nil, by simp [dropSides, leavesOf], fun s hs => ⟨by simp, fun i st its rest ks' T hw => way_nil ho hs rfl i st its rest ks' T ?_⟩⟩
    simpa [dropSides, started] using hw
  | side h1 _ ih =>
    obtain ⟨ks, h2, h2', h3⟩ := ih
    rw [dropSides, if_pos (hside _ h1)]
    exact ⟨ks, .side h1 h2, h2', h3⟩
  | @tok x t w items h1 _ ih =>
    obtain ⟨ks, h2, h2', h4⟩ := ih
    obtain ⟨k, rfl, hR, hns⟩ := hrel _ _ h1
    rw [dropSides, if_neg (by rw [hns]; simp)]
    refine ⟨(t, k) :: ks, .tok hR h2, by simp [leavesOf, Item.leaves, h2'], fun s hs => ⟨?_, ?_⟩⟩
    · intro x w' h; cases h; exact ⟨t, k, ks, rfl, rfl⟩
    · intro i st its rest ks' T hw
      obtain ⟨s1, k1, r, h5, h6, h7, h8⟩ := accepts_split ho hs rfl
      refine h8 i st its rest _ T ?_
      have ht := ho.token _ _ _ h5
      unfold Rule.reads at h6
      split at h6
      · rename_i hn
        split at h6
        · cases h6
        · split at h6
          · cases h6
            have : k1 = ((r.token.toNat : Nat) : Int) := by omega
            rw [this] at h5
            refine .read h5 hn ((h4 _ h7).2 i st _ rest ks' T ?_)
            simpa [started] using hw
          · cases h6
      · cases h6
  | @node n start u nits w items h1 _ _ ih1 ih2 =>
    obtain ⟨hne, f, hf, hu⟩ := h1
    obtain ⟨ks1, h2, h2', h3⟩ := ih1
    obtain ⟨ks2, h4, h4', h5⟩ := ih2
    rw [dropSides]
    refine ⟨ks1 ++ ks2, by rw [leavesOf, Item.leaves]; exact h2.append h4, by simp [leavesOf, Item.leaves, h2', h4'], fun s hs => ?_⟩
    obtain ⟨s1, k1, r, h6, h7, h8, h9⟩ := accepts_split ho hs rfl
    have hn : r.node = (n : Int) := by
      unfold Rule.reads at h7
      split at h7
      · split at h7
        · cases h7
        · split at h7 <;> cases h7
      · rename_i hne
        cases h7
        rcases ho.node _ _ _ h6 with h | h
        · exact absurd h hne
        · omega
    have hhead : ∃ (t : Token) (k : Nat) (ks' : List (Token × Nat)), ks1 = (t, k) :: ks' ∧ heads n k := by
      cases u with
      | nil => exact absurd rfl hne
      | cons x u' =>
        obtain ⟨t, k, ks', h10, h11⟩ := (h3 _ hu).1 x u' rfl
        refine ⟨t, k, ks', h10, ?_⟩
        cases x with
        | tok j =>
          have : k = j := by simpa [HeadOf] using h11
          subst this
          exact ho.tok n f k u' hf hu
        | eoi => exact h11.elim
        | node j => exact ho.nested n f j u' k hf hu h11
    obtain ⟨t, k, ks', rfl, hk⟩ := hhead
    refine ⟨?_, fun i st its rest ks'' T hw => h9 i st its rest _ T ?_⟩
    · intro x w' h; cases h; exact ⟨t, k, ks' ++ ks2, rfl, hk⟩
    · obtain ⟨r', hr', h12, h13⟩ := ho.full _ _ _ _ h6 hn k hk
      rw [started, h2'] at hw
      have h14 := (h3 _ hu).2 n (some t) [] (⟨r.state, i, st, its⟩ :: rest) (ks2 ++ ks'') T (.pop ((h5 _ h8).2 i st _ rest ks'' T (by
        simpa using hw)))
      rw [List.append_assoc]
      rw [← h13] at h14
      exact .push hr' h12 hf h14

/-- Nodes on the stack are those of their states, what may come after an upper node is what may come in the lower one. -/
def Stacked (node : Nat → Nat) (next after : Nat → Int → Prop) : List Part → Prop
  | [] => True
  | p :: rest => (∀ n : Nat, p.state = n → node n = p.index) ∧
    (match rest with
    | [] => after p.index eoiTokenType
    | q :: _ => ∀ k, comes next after q.state q.index k → after p.index k) ∧ Stacked node next after rest

variable {node : Nat → Nat} {next after : Nat → Int → Prop}

/-- Content does not matter. -/
theorem Stacked.content {p : Part} {its : List Item} {rest : List Part} (h : Stacked node next after (p :: rest)) :
    Stacked node next after ({ p with items := its } :: rest) := h

theorem Stacked.moved (hp : Predicts g m node next after) {s : Nat} {i : Nat} {st : Option Token} {its its' : List Item} {rest : List Part}
    {k : Int} {r : Rule} (hr : r ∈ m s k) (h : Stacked node next after (⟨s, i, st, its⟩ :: rest)) :
    Stacked node next after (⟨r.state, i, st, its'⟩ :: rest) := by
  obtain ⟨h1, h2, h3⟩ := h
  exact ⟨fun n hn => (hp.same s k r n hr hn).trans (h1 s rfl), h2, h3⟩

theorem Stacked.pushed (hp : Predicts g m node next after) {s : Nat} {i : Nat} {st : Option Token} {its : List Item} {rest : List Part}
    {k : Int} {r : Rule} {n f : Nat} (hr : r ∈ m s k) (hn : r.node = n) (hf : g.firsts[n]? = some f) {st' : Option Token}
    (h : Stacked node next after (⟨s, i, st, its⟩ :: rest)) :
    Stacked node next after (⟨f, n, st', []⟩ :: ⟨r.state, i, st, its⟩ :: rest) := by
  refine ⟨fun n' hn' => ?_, fun k' hk' => ?_, h.moved hp hr⟩
  · have : f = n' := by simpa using hn'
    subst this
    exact hp.first _ _ hf
  · have h1 := h.1 s rfl
    dsimp only at h1 hk'
    rw [← h1] at hk'
    exact hp.push s k r n hr hn k' hk'

/-- The next key is predicted. -/
theorem way_next (hp : Predicts g m node next after) {fr : List Part} {ks : List (Token × Nat)} {T : List Item} (h : Way g m fr ks T) :
    Stacked node next after fr → ∃ p rest, fr = p :: rest ∧ comes next after p.state p.index (nextKey ks) := by
  induction h with
  | done =>
    rintro ⟨-, h2, -⟩
    refine ⟨_, _, rfl, ?_⟩
    dsimp only
    rw [comes, if_pos rfl]
    exact h2
  | @pop i st its q rest ks T hw ih =>
    rintro ⟨-, h2, h3⟩
    obtain ⟨p, rest', h4, h5⟩ := ih h3.content
    cases h4
    refine ⟨_, _, rfl, ?_⟩
    dsimp only
    rw [comes, if_pos rfl]
    exact h2 _ h5
  | @skip s r i st its rest ks T hr hn hw ih =>
    intro hs
    obtain ⟨p, rest', h4, h5⟩ := ih (hs.moved hp hr)
    cases h4
    refine ⟨_, _, rfl, ?_⟩
    have h1 := hs.1 s rfl
    dsimp only at h5 h1 ⊢
    rw [← h1] at h5
    rw [comes, if_neg (by unfold finalState; omega)]
    exact hp.skip s r hr _ h5
  | @read s t k r i st its rest ks T hr hn hw ih =>
    intro hs
    refine ⟨_, _, rfl, ?_⟩
    dsimp only
    rw [comes, if_neg (by unfold finalState; omega)]
    exact hp.key s k (by unfold anyToken; omega) (List.ne_nil_of_mem hr)
  | @push s t k r n f i st its rest ks T hr hn hf hw ih =>
    intro hs
    refine ⟨_, _, rfl, ?_⟩
    dsimp only
    rw [comes, if_neg (by unfold finalState; omega)]
    exact hp.key s k (by unfold anyToken; omega) (List.ne_nil_of_mem hr)

/-- A run that uses a rule taking no token only if the next token has no other rule; `ok s ks` says that state `s` may request its types
when tokens `ks` are left. -/
inductive GreedyWay (g : Grammar) (m : Table) (also : Int → Int → Prop) (ok : Nat → List (Token × Nat) → Prop) :
    List Part → List (Token × Nat) → List Item → Prop
  | done {i : Nat} {st : Option Token} {its : List Item} : GreedyWay g m also ok [⟨finalState, i, st, its⟩] [] its
  | pop {i : Nat} {st : Option Token} {its : List Item} {q : Part} {rest : List Part} {ks : List (Token × Nat)} {T : List Item} :
      GreedyWay g m also ok ({ q with items := q.items ++ [.node i st its] } :: rest) ks T → GreedyWay g m also ok (⟨finalState, i, st, its⟩ :: q :: rest) ks T
  | skip {s : Nat} {r : Rule} {i : Nat} {st : Option Token} {its : List Item} {rest : List Part} {ks : List (Token × Nat)} {T : List Item} :
      r ∈ m s anyToken → r.node = sameNode → ok s ks → (∀ t k ks', ks = (t, k) :: ks' → m s (k : Nat) = [] ∧ ∀ k', also k k' → m s k' = []) →
      GreedyWay g m also ok (⟨r.state, i, st, its⟩ :: rest) ks T → GreedyWay g m also ok (⟨s, i, st, its⟩ :: rest) ks T
  | read {s : Nat} {t : Token} {k : Nat} {r : Rule} {i : Nat} {st : Option Token} {its : List Item} {rest : List Part}
      {ks : List (Token × Nat)} {T : List Item} : r ∈ m s k → r.node = sameNode → ok s ((t, k) :: ks) →
      GreedyWay g m also ok (⟨r.state, i, st, its ++ [.tok t]⟩ :: rest) ks T → GreedyWay g m also ok (⟨s, i, st, its⟩ :: rest) ((t, k) :: ks) T
  | push {s : Nat} {t : Token} {k : Nat} {r : Rule} {n f : Nat} {i : Nat} {st : Option Token} {its : List Item} {rest : List Part}
      {ks : List (Token × Nat)} {T : List Item} : r ∈ m s k → r.node = (n : Int) → g.firsts[n]? = some f → ok s ((t, k) :: ks) →
      GreedyWay g m also ok (⟨f, n, some t, []⟩ :: ⟨r.state, i, st, its⟩ :: rest) ((t, k) :: ks) T →
      GreedyWay g m also ok (⟨s, i, st, its⟩ :: rest) ((t, k) :: ks) T

/-- When one token is enough to choose a rule every run is such. -/
theorem way_greedy {also : Int → Int → Prop} (hp : Predicts g m node next after) (h1 : OneToken g m node next after also) {fr : List Part}
    {ks : List (Token × Nat)} {T : List Item} (h : Way g m fr ks T) :
    Stacked node next after fr → GreedyWay g m also (fun s ks => next s (nextKey ks)) fr ks T := by
  have hok : ∀ {s i : Nat} {st : Option Token} {its : List Item} {rest : List Part} {ks : List (Token × Nat)} {T : List Item},
      Way g m (⟨(s : Int), i, st, its⟩ :: rest) ks T → Stacked node next after (⟨(s : Int), i, st, its⟩ :: rest) → next s (nextKey ks) := by
    intro s i st its rest ks T hw hst
    obtain ⟨p, rest', hk', hcome⟩ := way_next hp hw hst
    cases hk'
    rwa [comes, if_neg (by simp only [finalState]; omega), Int.toNat_natCast] at hcome
  induction h with
  | done => exact fun _ => .done
  | pop _ ih => exact fun hst => .pop (ih hst.2.2.content)
  | @skip s r i st its rest ks T hr hn hw ih =>
    intro hst
    refine .skip hr hn (hok (.skip hr hn hw) hst) (fun t k ks' e => ?_) (ih (hst.moved hp hr))
    subst e
    obtain ⟨p, rest', hk', hcome⟩ := way_next hp hw (hst.moved hp hr)
    cases hk'
    dsimp only at hcome
    rw [← show node s = i from hst.1 s rfl] at hcome
    exact h1.skip s r hr k hcome
  | read hr hn hw ih => exact fun hst => .read hr hn (hok (.read hr hn hw) hst) (ih (hst.moved hp hr))
  | push hr hn hf hw ih => exact fun hst => .push hr hn hf (hok (.push hr hn hf hw) hst) (ih (hst.pushed hp hr hn hf))

end Verif.Proof
