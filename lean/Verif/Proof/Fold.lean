/-
Hooks made of objects compute a fold of the parse tree.
-/
import Verif.Model.Objects
import Verif.Proof.Hooks
import Verif.Proof.TreeHook

namespace Verif.Proof

open Verif.Model Verif.Spec

variable {σ ι ρ : Type}

/-- A call of another layer. -/
def Foreign : Event → Prop
  | .make l _ _ => 0 < l
  | .newNode l _ _ _ => 0 < l
  | .token l _ _ => 0 < l
  | .endNode l _ => 0 < l
  | .handleNode l _ _ _ => 0 < l

theorem foreign_call (c : HookClass ι ρ) (o : Objects ι ρ) (k : Nat) {e : Event} (h : Foreign e) : objectCall c o k e = .ok o := by
  match e, h with
  | .make (l + 1) _ _, _ => rfl
  | .newNode (l + 1) _ _ _, _ => rfl
  | .token (l + 1) _ _, _ => rfl
  | .endNode (l + 1) _, _ => rfl
  | .handleNode (l + 1) _ _ _, _ => rfl

theorem objects_snoc (c : HookClass ι ρ) (log : List Event) (e : Event) :
    objectsAfter c (log ++ [e]) = match objectCall c (objectsAfter c log) log.length e with
      | .ok o => o
      | .error _ => objectsAfter c log := by
  unfold objectsAfter
  rw [List.zipIdx_append, List.foldl_append]
  simp
  rfl

theorem objects_foreign (c : HookClass ι ρ) (log es : List Event) (h : ∀ e ∈ es, Foreign e) :
    objectsAfter c (log ++ es) = objectsAfter c log := by
  induction es generalizing log with
  | nil => simp
  | cons e es ih =>
    rw [show log ++ e :: es = (log ++ [e]) ++ es by simp, ih _ fun e he => h e (by simp [he]), objects_snoc,
      foreign_call c _ _ (h e (by simp))]

/-- A call of layer 0 followed by calls of other layers. -/
theorem objects_step (c : HookClass ι ρ) {log es : List Event} {e : Event} {o : Objects ι ρ}
    (he : objectCall c (objectsAfter c log) log.length e = .ok o) (h : ∀ e ∈ es, Foreign e) : objectsAfter c (log ++ e :: es) = o := by
  rw [show log ++ e :: es = (log ++ [e]) ++ es by simp, objects_foreign c _ _ h, objects_snoc, he]

theorem foreign_told {f : Nat → Nat → Event} (hf : ∀ l i, 0 < l → Foreign (f l i)) (hooks : List (Option Nat)) (l : Nat) (hl : 0 < l) :
    ∀ e ∈ told f l hooks, Foreign e := by
  induction hooks generalizing l with
  | nil => intro e he; cases he
  | cons hk hs ih =>
    cases hk with
    | none => exact ih (l + 1) (by omega)
    | some i =>
      intro e he
      rcases List.mem_cons.mp he with rfl | he
      · exact hf l i hl
      · exact ih (l + 1) (by omega) e he

theorem makes_foreign {env : PEnv σ} {index : Nat} {start : Option Token} {ls : List Nat} {a b : List Event}
    {hs : List (Option Nat)} (h : Makes env index start ls a hs b) (hl : ∀ l ∈ ls, 0 < l) :
    ∃ es, b = a ++ es ∧ ∀ e ∈ es, Foreign e := by
  induction h with
  | nil => exact ⟨[], by simp, by simp⟩
  | unhooked _ _ ih => exact ih (fun l h => hl l (by simp [h]))
  | absent _ _ _ ih =>
    obtain ⟨es, h1, h2⟩ := ih (fun l h => hl l (by simp [h]))
    refine ⟨_ :: es, by rw [h1]; simp; rfl, ?_⟩
    intro e he
    rcases List.mem_cons.mp he with rfl | he
    · exact hl _ (by simp)
    · exact h2 e he
  | made _ _ _ ih =>
    obtain ⟨es, h1, h2⟩ := ih (fun l h => hl l (by simp [h]))
    refine ⟨_ :: es, by rw [h1]; simp; rfl, ?_⟩
    intro e he
    rcases List.mem_cons.mp he with rfl | he
    · exact hl _ (by simp)
    · exact h2 e he

theorem map_ok {α β : Type} {x : Except Nat α} {f : α → β} {b : β} (h : x.map f = .ok b) : ∃ a, x = .ok a ∧ f a = b := by
  cases x with
  | error e => cases h
  | ok a => exact ⟨a, rfl, by cases h; rfl⟩

theorem makes_object {c : HookClass ι ρ} {env : PEnv σ} {index : Nat} {start : Option Token} {log log1 : List Event}
    {hooks : List (Option Nat)} (h : Makes (withObjects c env) index start (List.range (withObjects c env).layers) log hooks log1) :
    ∃ hs n, hooks = some log.length :: hs ∧ c.make index start = .ok n ∧ log.length < log1.length ∧
      objectsAfter c log1 = (objectsAfter c log).put log.length n := by
  obtain ⟨n, hn⟩ : ∃ n, (withObjects c env).layers = n + 1 := ⟨(withObjects c env).layers - 1, by simp only [withObjects]; omega⟩
  rw [hn, List.range_succ_eq_map] at h
  cases h with
  | unhooked h1 _ => simp [withObjects] at h1
  | absent _ h1 _ =>
    obtain ⟨_, _, h2⟩ := map_ok h1
    cases h2
  | made _ h1 h2 =>
    obtain ⟨es, rfl, h4⟩ := makes_foreign h2 (by simp)
    obtain ⟨o, h5, -⟩ := map_ok h1
    have h5' := h5
    rw [objectCall] at h5'
    obtain ⟨n, h6, rfl⟩ := map_ok h5'
    refine ⟨_, n, rfl, h6, by simp, ?_⟩
    rw [List.append_assoc, List.singleton_append, objects_step c h5 h4]

/-- What a finished node leaves. -/
def NodeFolds (c : HookClass ι ρ) (index : Nat) (start : Option Token) (items : List Item) (log : List Event)
    (results : List (Option Nat)) (log' : List Event) : Prop :=
  log.length ≤ log'.length ∧ (∀ k < log.length, (objectsAfter c log').insts k = (objectsAfter c log).insts k) ∧
    ∃ k r rs, results = some k :: rs ∧ (objectsAfter c log').vals k = some r ∧ c.node index start items = .ok r

/-- What the content of a node leaves. -/
def ItemsFold (c : HookClass ι ρ) (hooks : List (Option Nat)) (items : List Item) (log log' : List Event) : Prop :=
  log.length ≤ log'.length ∧ ∀ i hs s, hooks = some i :: hs → i < log.length → (objectsAfter c log).insts i = some s →
    (∀ k < log.length, k ≠ i → (objectsAfter c log').insts k = (objectsAfter c log).insts k) ∧
    ∃ s', (objectsAfter c log').insts i = some s' ∧ c.items s items = .ok s'

theorem items_snoc (c : HookClass ι ρ) (s : ι) (a : List Item) (i : Item) : c.items s (a ++ [i]) = orStop (c.items s a) fun s => c.item s i := by
  induction a generalizing s with
  | nil =>
    rw [List.nil_append, HookClass.items, HookClass.items]
    simp only [orStop, HookClass.items]
    cases c.item s i <;> rfl
  | cons x a ih =>
    rw [List.cons_append, HookClass.items, HookClass.items]
    cases c.item s x with
    | error e => rfl
    | ok s' => exact ih s'

theorem ends_foreign {env : PEnv σ} {l : Nat} {hs rs : List (Option Nat)} {a b : List Event} (h : Ends env l hs a rs b) (hl : 0 < l) :
    ∃ es, b = a ++ es ∧ ∀ e ∈ es, Foreign e := by
  induction h with
  | nil => exact ⟨[], by simp, by simp⟩
  | none _ ih => exact ih (by omega)
  | some _ _ ih =>
    obtain ⟨es, h1, h2⟩ := ih (by omega)
    refine ⟨_ :: es, by rw [h1]; simp; rfl, ?_⟩
    intro e he
    rcases List.mem_cons.mp he with rfl | he
    · exact hl
    · exact h2 e he

theorem fold_mk {c : HookClass ι ρ} {env : PEnv σ} {index : Nat} {start : Option Token}
    {items : List Item} {log log1 log2 log3 : List Event} {hooks results : List (Option Nat)}
    (h1 : Makes (withObjects c env) index start (List.range (withObjects c env).layers) log hooks log1)
    (h3 : Ends (withObjects c env) 0 hooks log2 results log3) (ih : ItemsFold c hooks items log1 log2) :
    NodeFolds c index start items log results log3 := by
  obtain ⟨hs, n, rfl, hn, hlt, ho⟩ := makes_object h1
  obtain ⟨hl, ih⟩ := ih
  obtain ⟨k1, s', k2, k3⟩ := ih log.length hs n rfl hlt (by rw [ho]; simp [Objects.put])
  cases h3 with
  | @some _ _ _ _ res rs _ e1 e2 =>
    obtain ⟨es, rfl, e3⟩ := ends_foreign e2 (by omega)
    obtain ⟨o, e4, rfl⟩ := map_ok e1
    have e5 := e4
    simp only [objectCall, k2] at e5
    obtain ⟨r, e6, rfl⟩ := map_ok e5
    have hobj : objectsAfter c (log2 ++ [Event.endNode 0 log.length] ++ es) = (objectsAfter c log2).return log2.length r := by
      rw [List.append_assoc, List.singleton_append, objects_step c e4 e3]
    refine ⟨by simp; omega, fun k hk => ?_, log2.length, r, rs, rfl, by rw [hobj]; simp [Objects.return], ?_⟩
    · rw [hobj]
      simp only [Objects.return]
      rw [k1 k (by omega) (by omega), ho]
      simp only [Objects.put]
      rw [if_neg (by omega)]
    · rw [HookClass.node, hn]
      simp only [orStop, k3, e6]

theorem fold_nil {c : HookClass ι ρ} {hooks : List (Option Nat)} {log : List Event} : ItemsFold c hooks [] log log :=
  ⟨Nat.le_refl _, fun i hs s _ _ h => ⟨fun _ _ _ => rfl, s, h, by rw [HookClass.items]⟩⟩

theorem fold_tok {c : HookClass ι ρ} {env : PEnv σ} {hooks : List (Option Nat)} {items : List Item}
    {log log1 log2 : List Event} {t : Token} (h : Calls (withObjects c env) log1 (told (fun l i => .token l i t) 0 hooks) log2)
    (ih : ItemsFold c hooks items log log1) : ItemsFold c hooks (items ++ [.tok t]) log log2 := by
  obtain ⟨hlog, hcall⟩ := h
  obtain ⟨hl, ih⟩ := ih
  refine ⟨by rw [hlog]; simp; omega, ?_⟩
  rintro i hs s rfl hi hs0
  obtain ⟨k1, s', k2, k3⟩ := ih i hs s rfl hi hs0
  rw [told] at hlog hcall
  obtain ⟨v, hv⟩ := hcall [] _ _ rfl
  rw [List.append_nil] at hv
  obtain ⟨o, e1, -⟩ := map_ok hv
  have e2 := e1
  simp only [objectCall, k2] at e2
  obtain ⟨s2, e3, rfl⟩ := map_ok e2
  have hobj := objects_step c e1 (es := told (fun l i => Event.token l i t) (0 + 1) hs)
    (foreign_told (f := fun l i => Event.token l i t) (fun l i hl => hl) hs 1 (by omega))
  rw [hlog, hobj]
  refine ⟨fun k hk hne => ?_, s2, by simp [Objects.put], ?_⟩
  · simp only [Objects.put, if_neg hne]
    exact k1 k hk hne
  · rw [items_snoc, k3]
    simp only [orStop, HookClass.item, e3]

theorem fold_node {c : HookClass ι ρ} {env : PEnv σ} {hooks : List (Option Nat)} {items its : List Item}
    {log log1 log2 log3 log4 : List Event} {index : Nat} {start : Option Token} {rs : List (Option Nat)}
    (h : Calls (withObjects c env) log1 (told (fun l i => .newNode l i index start) 0 hooks) log2)
    (h' : Calls (withObjects c env) log3 (told (fun l i => .handleNode l i index ((rs[l]?).getD none)) 0 hooks) log4)
    (ih : ItemsFold c hooks items log log1) (ihn : NodeFolds c index start its log2 rs log3) :
    ItemsFold c hooks (items ++ [.node index start its]) log log4 := by
  obtain ⟨hlog, hcall⟩ := h
  obtain ⟨hlog', hcall'⟩ := h'
  obtain ⟨hl, ih⟩ := ih
  obtain ⟨hl', n1, k, r, rs', rfl, n2, n3⟩ := ihn
  have hl2 : log1.length ≤ log2.length := by rw [hlog]; simp
  refine ⟨by rw [hlog']; simp; omega, ?_⟩
  rintro i hs s rfl hi hs0
  obtain ⟨k1, s', k2, k3⟩ := ih i hs s rfl hi hs0
  rw [told] at hlog hcall hlog' hcall'
  obtain ⟨v, hv⟩ := hcall [] _ _ rfl
  obtain ⟨v', hv'⟩ := hcall' [] _ _ rfl
  rw [List.append_nil] at hv hv'
  obtain ⟨o, e1, -⟩ := map_ok hv
  have e2 := e1
  simp only [objectCall, k2] at e2
  obtain ⟨s2, e3, rfl⟩ := map_ok e2
  have hobj := objects_step c e1 (es := told (fun l i => Event.newNode l i index start) (0 + 1) hs)
    (foreign_told (f := fun l i => Event.newNode l i index start) (fun l i hl => hl) hs 1 (by omega))
  rw [← hlog] at hobj
  have k4 : (objectsAfter c log3).insts i = some s2 := by
    rw [n1 i (by omega), hobj]
    simp [Objects.put]
  obtain ⟨o', d1, -⟩ := map_ok hv'
  have d2 := d1
  simp only [objectCall, List.getElem?_cons_zero, Option.getD_some, k4, n2] at d2
  obtain ⟨s3, d3, rfl⟩ := map_ok d2
  have hobj' := objects_step c d1 (es := told (fun l i => Event.handleNode l i index (((some k :: rs')[l]?).getD none)) (0 + 1) hs)
    (foreign_told (f := fun l i => Event.handleNode l i index (((some k :: rs')[l]?).getD none)) (fun l i hl => hl) hs 1 (by omega))
  rw [hlog', hobj']
  refine ⟨fun j hj hne => ?_, s3, by simp [Objects.put], ?_⟩
  · simp only [Objects.put, if_neg hne]
    rw [n1 j (by omega), hobj]
    simp only [Objects.put, if_neg hne]
    exact k1 j hj hne
  · rw [items_snoc, k3]
    simp only [orStop, HookClass.item, e3]
    rw [HookClass.node] at n3
    simp only [orStop] at n3
    rw [n3]
    exact d3

/-- A finished node leaves its result. -/
theorem nodeRun_folds {c : HookClass ι ρ} {env : PEnv σ} {index : Nat} {start : Option Token} {items : List Item} {log log' : List Event}
    {hooks results : List (Option Nat)} (h : NodeRun (withObjects c env) index start items log hooks results log') :
    NodeFolds c index start items log results log' := by
  refine NodeRun.rec (motive_1 := fun index start items a _ rs b _ => NodeFolds c index start items a rs b)
    (motive_2 := fun hooks items a b _ => ItemsFold c hooks items a b) ?_ ?_ ?_ ?_ h
  · intro _ _ _ _ _ _ _ _ _ hm _ he ih
    exact fold_mk hm he ih
  · intros; exact fold_nil
  · intro _ _ _ _ _ _ _ hc ih
    exact fold_tok hc ih
  · intro _ _ _ _ _ _ _ _ _ _ _ _ _ hc _ hc' ih ih'
    exact fold_node hc hc' ih ih'

end Verif.Proof
