/-
C57: verdicts of `langdef.Parse`.
-/
import Verif.Proof.CompileTotal
import Verif.Props.LangParse

namespace Verif.Props

open Verif Verif.Model Verif.Model.LangDef Verif.Spec Verif.Spec.Ebnf Verif.Spec.LangDef Verif.Proof Verif.Proof.LangDef Relation

/-- The definition of node `a` mentions node `b`. -/
def Mentions (bodies : List Chunk) (a b : Nat) : Prop := ∃ c, bodies[a]? = some c ∧ b ∈ refs c

/-- Token `k` is a literal and no type can be fetched for it. -/
def Unfetched (upper : List Nat → List Nat) (find : Nat → List Nat → List Nat) (ts : List GToken) (k : Nat) : Prop :=
  (∃ t, ts[k]? = some t ∧ t.flags.literal = true) ∧ ∀ j, ¬ Provides upper find ts k j

/-- What a result of compilation says. -/
def Verdict (upper : List Nat → List Nat) (find : Nat → List Nat → List Nat) (ts : List GToken) (defs : List (Option Chunk))
    (order1 order2 order3 : List Nat) (fuel : Nat) (r : Except CompileErr Grammar) : Prop :=
  match r with
  /- the first literal that cannot be fetched -/
  | .error (.tokenTypes name) => ∃ k t, ts[k]? = some t ∧ t.name = name ∧ Unfetched upper find ts k
  | r => (∀ k, ¬ Unfetched upper find ts k) ∧
    match r with
    /- all nodes without definitions -/
    | .error (.undefinedNodes l) => l ≠ [] ∧ ∀ i, i ∈ l ↔ defs[i]? = some none
    | r => ∃ bodies : List Chunk, defs = bodies.map some ∧
      match r with
      /- all nodes that cannot be reached from the root -/
      | .error (.unusedNodes l) => l ≠ [] ∧ ∀ i, i ∈ l ↔ i < bodies.length ∧ ¬ ReflTransGen (Mentions bodies) 0 i
      | r => (∀ i < bodies.length, ReflTransGen (Mentions bodies) 0 i) ∧
        match r with
        /- all nodes that cannot start with any token -/
        | .error (.unresolved l) => l ≠ [] ∧ ∀ i, i ∈ l ↔ i < bodies.length ∧ ∀ k, ¬ Starts (fun i => (bodies[i]?).getD .eoi) i k
        | r => (∀ i < bodies.length, ∃ k, Starts (fun i => (bodies[i]?).getD .eoi) i k) ∧
          match r with
          /- left recursive nodes, all of them if there is no `$` -/
          | .error (.recursion l) => l ≠ [] ∧ (∀ i ∈ l, i < bodies.length ∧ LeftRecursive bodies i) ∧
            ((∀ c ∈ bodies, NoEoi c) → ∀ i, i ∈ l ↔ i < bodies.length ∧ LeftRecursive bodies i)
          | .ok g => ((∀ c ∈ bodies, NoEoi c) → ∀ i < bodies.length, ¬ LeftRecursive bodies i) ∧
            Compiled upper find ts bodies order1 order2 order3 fuel g
          | _ => False

theorem assign_verdict {upper : List Nat → List Nat} {find : Nat → List Nat → List Nat} {ts a b c : List GToken} (hlay : Layout ts a b c)
    (ha : a.length ≤ 64) : match assignTokenTypes upper find ts with
      | .error name => ∃ k t, ts[k]? = some t ∧ t.name = name ∧ Unfetched upper find ts k
      | .ok _ => ∀ k, ¬ Unfetched upper find ts k := by
  have hzero : ∀ lt : GToken, lt ∈ ts.drop (literalStart ts) → ∃ k, ts[k]? = some lt ∧ lt.flags.literal = true ∧
      (literalTypes upper find ts lt = 0 ↔ ∀ j, ¬ Provides upper find ts k j) := by
    intro lt hlt
    obtain ⟨i, hi⟩ := List.getElem?_of_mem hlt
    rw [List.getElem?_drop] at hi
    have hl : lt.flags.literal = true := by
      rw [hlay.literalStart, hlay.eq, List.getElem?_append_right (by simp)] at hi
      exact (hlay.lit _ (List.mem_of_getElem? hi)).2
    refine ⟨_, hi, hl, ?_⟩
    constructor
    · rintro h0 j ⟨kt, h1, h2⟩
      rw [hi] at h1
      cases h1
      rw [if_pos hl] at h2
      obtain ⟨rt, h3, h4, h5, h6, h7⟩ := h2
      have hj : j < a.length := by
        by_contra hge
        have h8 : rt ∈ b ++ c := by
          rw [hlay.eq, List.append_assoc, List.getElem?_append_right (by omega)] at h3
          exact List.mem_of_getElem? h3
        rcases List.mem_append.mp h8 with hm | hm
        · rw [(hlay.ext _ hm).1] at h4; cases h4
        · rw [(hlay.lit _ hm).1] at h4; cases h4
      have := (literalTypes_get (upper := upper) (find := find) (ts := ts) (lt := lt) (j := j) (by omega)).2
        ⟨by rw [hlay.reCount]; exact hj, rt, h3, h5, h6, h7⟩
      rw [h0] at this
      simp at this
    · intro h
      apply BitVec.eq_of_getLsbD_eq
      intro j hj
      by_contra hne
      have hb : (literalTypes upper find ts lt).getLsbD j = true := by
        cases hx : (literalTypes upper find ts lt).getLsbD j
        · rw [hx] at hne; simp at hne
        · rfl
      obtain ⟨h1, rt, h2, h3, h4, h5⟩ := (literalTypes_get hj).1 hb
      rw [hlay.reCount] at h1
      refine h j ⟨lt, hi, ?_⟩
      rw [if_pos hl]
      refine ⟨rt, h2, ?_, h3, h4, h5⟩
      rw [hlay.eq, List.append_assoc, List.getElem?_append_left h1] at h2
      exact (hlay.re _ (List.mem_of_getElem? h2)).1
  unfold assignTokenTypes
  split
  · next name hr =>
    split at hr
    · next lt hf =>
      cases hr
      have h1 := List.mem_of_find?_eq_some hf
      have h2 := List.find?_some hf
      obtain ⟨k, h3, h4, h5⟩ := hzero lt h1
      exact ⟨k, lt, h3, rfl, ⟨lt, h3, h4⟩, h5.1 (by simpa using h2)⟩
    · cases hr
  · next x hr =>
    split at hr
    · cases hr
    · next hf =>
      rintro k ⟨⟨t, h1, h2⟩, h3⟩
      have hk : a.length + b.length ≤ k := by
        by_contra hlt
        rw [hlay.eq, List.getElem?_append_left (by simp; omega)] at h1
        rcases List.mem_append.1 (List.mem_of_getElem? h1) with hm | hm
        · rw [(hlay.re _ hm).2] at h2; cases h2
        · rw [(hlay.ext _ hm).2] at h2; cases h2
      have hm : t ∈ ts.drop (literalStart ts) := by
        rw [hlay.literalStart]
        refine List.mem_of_getElem? (i := k - (a.length + b.length)) ?_
        rw [List.getElem?_drop, ← h1]
        congr 1; omega
      rw [List.find?_eq_none] at hf
      refine hf t hm ?_
      obtain ⟨k', h4, h5, h6⟩ := hzero t hm
      rw [decide_eq_true_eq, h6]
      rintro j ⟨kt, h7, h8⟩
      rw [h4] at h7
      cases h7
      refine h3 j ⟨t, h1, ?_⟩
      rw [if_pos h2] at h8 ⊢
      exact h8

/-- C57: compilation always stops without a panic, and its verdict is exact: the grammar is rejected only for the reason that is reported, and
all nodes that are wrong in this way are reported. (With `$` only some left recursive nodes are found, see C26.) -/
theorem C57_compile_verdict {upper : List Nat → List Nat} {find : Nat → List Nat → List Nat} {ts a b c : List GToken} (hlay : Layout ts a b c)
    (ha : a.length ≤ 64) {defs : List (Option Chunk)}
    (hwf : ∀ ch, some ch ∈ defs → WF ch ∧ IsBody ch ∧ ch.Below ts.length ∧ ∀ j ∈ refs ch, j < defs.length) {order1 order2 order3 : List Nat}
    (h1 : order1.Perm (List.range defs.length)) (h2 : order2.Perm (List.range defs.length)) (h3 : order3.Perm (List.range defs.length)) :
    ∃ N, ∀ fuel, N ≤ fuel → ∃ r, compile upper find ts defs order1 order2 order3 fuel = .done r ∧
      Verdict upper find ts defs order1 order2 order3 fuel r := by
  have hassign := assign_verdict (upper := upper) (find := find) hlay ha
  cases htt : assignTokenTypes upper find ts with
  | error name =>
    rw [htt] at hassign
    refine ⟨0, fun fuel _ => ⟨.error (.tokenTypes name), ?_, hassign⟩⟩
    unfold compile
    rw [htt]
  | ok ttypes =>
    rw [htt] at hassign
    dsimp only at hassign
    cases hund : findUndefinedNodes (fun i => (defs[i]?).getD none) order1 with
    | cons i is =>
      refine ⟨0, fun fuel _ => ⟨.error (.undefinedNodes (i :: is)), ?_, hassign, by simp, ?_⟩⟩
      · unfold compile
        rw [htt]
        dsimp only
        rw [hund]
      · intro j
        rw [← hund, C25_undefined_nodes _ defs.length order1 h1]
        constructor
        · rintro ⟨hj, h⟩
          rw [List.getElem?_eq_getElem hj] at h ⊢
          exact congrArg some h
        · intro h
          exact ⟨(List.getElem?_eq_some_iff.1 h).1, by rw [h]; rfl⟩
    | nil =>
      have hall := fetched_all h1 hund
      generalize hb : defs.filterMap id = bodies at hall
      have hlen : defs.length = bodies.length := by rw [hall]; simp
      rw [hlen] at h1 h2 h3
      have hwf' : ∀ ch ∈ bodies, WF ch ∧ IsBody ch ∧ ch.Below ts.length ∧ ∀ j ∈ refs ch, j < bodies.length := by
        intro ch hch
        have := hwf ch (by rw [hall]; exact List.mem_map.2 ⟨ch, hch, rfl⟩)
        rw [hlen] at this
        exact this
      have hmem : ∀ i < bodies.length, (bodies[i]?).getD .eoi ∈ bodies := by
        intro i hi
        rw [List.getElem?_eq_getElem hi]
        exact List.getElem_mem hi
      have hment : ∀ i, ReflTransGen (fun a b => b ∈ ((bodies[a]?).getD .eoi).nodes) 0 i ↔ ReflTransGen (Mentions bodies) 0 i := by
        intro i
        have : (fun a b => b ∈ ((bodies[a]?).getD .eoi).nodes) = Mentions bodies := by
          funext a b
          apply propext
          unfold Mentions
          rw [nodes_eq]
          cases hx : bodies[a]? with
          | none => simp [refs]
          | some c => simp
        rw [this]
      obtain ⟨N1, hN1⟩ := C25_unused_nodes (fun i => ((bodies[i]?).getD .eoi).nodes) bodies.length
        (fun i hi j hj => (hwf' _ (hmem i hi)).2.2.2 j (by rw [nodes_eq] at hj; exact hj))
      obtain ⟨N2, hN2⟩ := C24_first_sets (fun i => (bodies[i]?).getD .eoi) (fun i => ((bodies[i]?).getD .eoi).nodes) bodies.length
        order2 order3 (fun i hi => (hwf' _ (hmem i hi)).1) (fun i hi => nodes_eq _) (fun i hi => (hwf' _ (hmem i hi)).2.2.2) h2 h3
      refine ⟨N1 + N2 + bodies.length + 1, fun fuel hf => ?_⟩
      obtain ⟨un, hun, -, huni⟩ := hN1 fuel (by omega)
      simp only [hment] at huni
      obtain ⟨r, hr, hrs⟩ := hN2 fuel (by omega)
      have hcomp : compile upper find ts defs order1 order2 order3 fuel = (match (generalizing := false) un with
        | i :: is => .done (.error (.unusedNodes (i :: is)))
        | [] => match (generalizing := false) r with
          | .error l => .done (.error (.unresolved l))
          | .ok ft =>
            orPanic (buildNodes ft bodies {}) fun b =>
                Tree.bindRun (findRecursions (fun i => nestedNodes b.1 ((b.2[i]?).getD 0)
                    (sorted (b.1.keysOf ((b.2[i]?).getD 0)))) bodies.length fuel) fun rec =>
                  match rec with
                  | i :: is => .done (.error (.recursion (i :: is)))
                  | [] =>
                    orPanic (assignStateTypes (sideTypes ts) ttypes b.2 b.1) fun pr =>
                      orPanic (pr.buildGrammar b.2) fun r =>
                        .done (.ok { tokens := ts, firsts := r.2, tables := r.1 })) := by
        unfold compile
        rw [htt]
        dsimp only
        rw [hund]
        dsimp only
        rw [hb, hun]
        cases un with
        | cons i is => rfl
        | nil =>
          rw [Tree.bindRun]
          dsimp only
          rw [hr]
          rfl
      cases un with
      | cons i is =>
        refine ⟨_, hcomp, hassign, bodies, hall, by simp, huni⟩
      | nil =>
        have hreach : ∀ i < bodies.length, ReflTransGen (Mentions bodies) 0 i := by
          intro i hi
          by_contra hn
          have := (huni i).2 ⟨hi, hn⟩
          cases this
        cases r with
        | error l => exact ⟨_, hcomp, hassign, bodies, hall, hreach, hrs.1, hrs.2.2⟩
        | ok ft =>
          dsimp only at hcomp hrs
          obtain ⟨hs1, hs2, hs3⟩ := hrs
          have hstart : ∀ i < bodies.length, ∃ k, Starts (fun i => (bodies[i]?).getD .eoi) i k := by
            intro i hi
            obtain ⟨k, hk⟩ := hs2 i hi
            exact ⟨k, (hs1 i hi k).1 hk⟩
          obtain ⟨pr, fs, hbn, hgr, hfl, hfirst⟩ := buildNodes_spec ft bodies (fun c hc => (hwf' c hc).1) ok_empty
          rw [hbn] at hcomp
          dsimp only [orPanic] at hcomp
          obtain ⟨is, his, hrec⟩ := C26_reported_is_left_recursive_partial ft bodies (fun c hc => (hwf' c hc).1)
            (fun c hc => (hwf' c hc).2.2.2) pr fs hbn (fun i => sorted (pr.keysOf (fs.getD i 0)))
            (fun i s hs k => by rw [mem_sorted, List.getD_eq_getElem?_getD, hs]; rfl) fuel (by omega)
          have hexact : (∀ c ∈ bodies, NoEoi c) → ∀ i, i ∈ is ↔ i < bodies.length ∧ LeftRecursive bodies i := by
            intro hne
            have hft : ∀ i, ∀ k ∈ ft i, 0 ≤ k := by
              intro i k hk
              by_cases hi : i < bodies.length
              · refine starts_nonneg (n := bodies.length) ?_ ?_ ((hs1 i hi k).mp hk) hi
                · intro i hi w hw
                  exact lang_noEoi _ (hne _ (hmem i hi)) w hw
                · intro i hi w hw j hj
                  exact (hwf' _ (hmem i hi)).2.2.2 j (lang_refs _ w hw j hj)
              · rw [hs3 i (by omega)] at hk; simp at hk
            obtain ⟨is', his', -, hex⟩ := C26_left_recursion ft bodies hft (fun c hc => ⟨(hwf' c hc).1, (hwf' c hc).2.1, hne c hc⟩)
              (fun c hc i hi => ⟨(hwf' c hc).2.2.2 i hi, hs2 i ((hwf' c hc).2.2.2 i hi)⟩) pr fs hbn (fun i => sorted (pr.keysOf (fs.getD i 0)))
              (fun i s hs k => by rw [mem_sorted, List.getD_eq_getElem?_getD, hs]; rfl) fuel (by omega)
            rw [his] at his'
            cases his'
            exact hex
          simp only [List.getD_eq_getElem?_getD] at his
          rw [his] at hcomp
          cases is with
          | cons i is =>
            refine ⟨_, hcomp, hassign, bodies, hall, hreach, hstart, by simp, ?_, hexact⟩
            intro j hj
            obtain ⟨f, hf0, hf⟩ := hrec j hj
            obtain ⟨c, w, h4, -⟩ := hf 0
            rw [hf0] at h4
            exact ⟨(List.getElem?_eq_some_iff.1 h4).1, ⟨f, hf0, hf⟩⟩
          | nil =>
            dsimp only [Tree.bindRun] at hcomp
            have hkeys : pr.KeysBelow ttypes.length := by
              rw [ttypes_length htt]
              refine buildNodes_below ft ?_ bodies (fun c hc => (hwf' c hc).2.2.1) (by intro e he; cases he) hbn
              intro i k hk
              by_cases hi : i < bodies.length
              · exact starts_below (m := bodies.length) (fun i hi => (hwf' _ (hmem i hi)).2.2.1) (fun i hi => (hwf' _ (hmem i hi)).2.2.2)
                  ((hs1 i hi k).1 hk) hi
              · rw [hs3 i (by omega)] at hk; simp at hk
            have hfs : ∀ f ∈ fs, f ≤ pr.states.length := by
              intro f hf
              obtain ⟨i, hi⟩ := List.getElem?_of_mem hf
              have hil := (List.getElem?_eq_some_iff.1 hi).1
              obtain ⟨p, q, -, -, -, -, h4, h5⟩ := hfirst i _ f (List.getElem?_eq_getElem (by omega)) hi
              have := h5.len
              omega
            obtain ⟨pr', hpr'⟩ := assignStateTypes_some (default := sideTypes ts) fs hkeys hfs
            obtain ⟨hre, -⟩ := assignStateTypes_spec fs hpr'
            have hk := ok_keys (dropUnused_ok (firsts := fs) (hre.ok hgr.ok))
            obtain ⟨t, ht, -⟩ := C27_tables_mean_entries (pr'.dropUnused fs).1 hk.1 hk.2
            have hg : ∃ x, pr'.buildGrammar fs = some x := by
              simp [PR.buildGrammar, ht]
            obtain ⟨x, hx⟩ := hg
            rw [hpr'] at hcomp
            dsimp only at hcomp
            rw [hx] at hcomp
            dsimp only at hcomp
            refine ⟨_, hcomp, hassign, bodies, hall, hreach, hstart, ?_, ?_⟩
            · intro hne i hi hl
              have := (hexact hne i).2 ⟨hi, hl⟩
              cases this
            · exact ⟨by rw [← hall]; exact hcomp, fun c hc => ⟨(hwf' c hc).1, (hwf' c hc).2.1⟩, fun c hc => (hwf' c hc).2.2.2, h2, h3⟩

/-- C57: for every correct description `langdef.Parse` stops without a panic, and its verdict is exact; `ts` are tokens of the text. What is
missing: as in C55 (types listed in `!group` twice, the count of types) and C53 (`Plain`). -/
theorem C57_description_verdict_partial {upper : List Nat → List Nat} {find : List Nat → List Nat → List Nat} {okRe : List Nat → Bool}
    {order1 order2 order3 : List Nat} {inp : List (Except LErr LTok)} {head : List HeadItem} {body : List BodyItem}
    {D : List (List Nat × List Nat)} (hp : Plain inp) (hi : IsDescription head body inp) (hc : Correct okRe head body D)
    (hg : (groups head).flatten.Nodup) (hnum : D.length + (enlist [] (head.flatMap HeadItem.mentions)).length < maxTokenType)
    (h1 : order1.Perm (List.range (nodeList body).length)) (h2 : order2.Perm (List.range (nodeList body).length))
    (h3 : order3.Perm (List.range (nodeList body).length)) {ts : List GToken}
    (hts : ts = enlistLits (headTable head D) (body.flatMap BodyItem.lits)) :
    ∃ N, ∀ fuel, N ≤ fuel → ∃ r, langParse upper find okRe order1 order2 order3 fuel inp = .done r ∧
      match r with
      | .error (.read _) => False
      | .error (.compile e) => Verdict upper (findRe find ts) ts (textDefs body ts) order1 order2 order3 fuel (.error e)
      | .ok p => Verdict upper (findRe find ts) ts (textDefs body ts) order1 order2 order3 fuel (.ok p.grammar) := by
  obtain ⟨a, b, c, hlay, ha⟩ := text_layout head body D
  rw [← hts] at hlay
  have hlen : (textDefs body ts).length = (nodeList body).length := by unfold textDefs; simp
  obtain ⟨N, hN⟩ := C57_compile_verdict (upper := upper) (find := findRe find ts) hlay (by rw [ha]; have := hc.number; unfold maxTokenType at this; omega)
    (textDefs_wf hi) (hlen ▸ h1 : order1.Perm (List.range (textDefs body ts).length)) (hlen ▸ h2 : order2.Perm (List.range (textDefs body ts).length))
    (hlen ▸ h3 : order3.Perm (List.range (textDefs body ts).length))
  refine ⟨N + 3 * inp.length + 2, fun fuel hf => ?_⟩
  obtain ⟨c, hr, hn, ht⟩ := C55_accepted_partial hp hi hc hg hnum (fuel := fuel) (by omega)
  rw [← hts] at ht
  obtain ⟨r, hcr, hv⟩ := hN fuel (by omega)
  have hd := nodes_textDefs hn
  rw [ht] at hd
  unfold langParse
  rw [hr]
  dsimp only [Tree.bindRun]
  rw [hd, ht, hcr]
  cases r with
  | error e => exact ⟨_, rfl, hv⟩
  | ok g => exact ⟨_, rfl, hv⟩

/-- C57: undefined nodes in the verdict are nodes that are mentioned, but not defined in the text. -/
theorem C57_undefined_partial {okRe : List Nat → Bool} {fuel : Nat} {inp : List (Except LErr LTok)} {c : Ctx} {head : List HeadItem}
    {body : List BodyItem} (hp : Plain inp) (hi : IsDescription head body inp) (h : LangDef.read okRe fuel inp = .done (.ok c)) (i : Nat) :
    (textDefs body c.tokens)[i]? = some none ↔ ∃ n, (nodeList body)[i]? = some n ∧ n ∉ body.flatMap BodyItem.defined := by
  have hn := C53_nodes_partial hp hi h
  rw [← nodes_textDefs hn, show nodeList body = c.nodes.map NodeEntry.name from hn.names.symm, List.getElem?_map, List.getElem?_map]
  cases hx : c.nodes[i]? with
  | none => simp
  | some e =>
    simp only [Option.map_some, Option.some.injEq, exists_eq_left']
    constructor
    · intro h0 hdef
      obtain ⟨it, hit, hd⟩ := List.mem_flatMap.1 hdef
      cases it with
      | layer l => cases hd
      | node m es =>
        rw [BodyItem.defined, List.mem_singleton] at hd
        subst hd
        obtain ⟨e', he', hname, chs, -, h2, -⟩ := hn.defined _ _ hit
        have hnd : (c.nodes.map NodeEntry.name).Nodup := by rw [hn.names]; exact enlist_nodup _ [] (by simp)
        have := List.inj_on_of_nodup_map hnd he' (List.mem_of_getElem? hx) hname
        subst this
        rw [h2] at h0
        cases h0
    · intro h0
      exact (hn.undefined e (List.mem_of_getElem? hx) h0).1

/-- The sample description has a verdict. -/
example : ∃ N, ∀ fuel, N ≤ fuel → ∃ r, langParse id descFind (fun _ => true) [0] [0] [0] fuel descSample = .done r :=
  have h := descSample_correct
  have ⟨N, hN⟩ := C57_description_verdict_partial (upper := id) (find := descFind) (order1 := [0]) (order2 := [0]) (order3 := [0]) h.1 h.2.1 h.2.2.1
    h.2.2.2.1 h.2.2.2.2 (List.Perm.refl _) (List.Perm.refl _) (List.Perm.refl _) rfl
  ⟨N, fun fuel hf => (hN fuel hf).imp fun _ h => h.1⟩

/-- A structure without the definition of node 1, one literal and one type. -/
def lackDefs : List (Option Chunk) := [some (.group [.token 1, .node 1] false false), none]

/-- Hypotheses of the first theorem hold and the verdict is an error. -/
example : ∃ a b c, Layout [typeEntry [] (bytesOf "n") (some (bytesOf "a")), literalEntry (bytesOf "a", false)] a b c ∧ a.length ≤ 64 ∧
    (∀ ch, some ch ∈ lackDefs → WF ch ∧ IsBody ch ∧ ch.Below 2 ∧ ∀ j ∈ refs ch, j < lackDefs.length) ∧
    ∃ l, compile id (fun _ t => t) [typeEntry [] (bytesOf "n") (some (bytesOf "a")), literalEntry (bytesOf "a", false)] lackDefs [0, 1] [0, 1] [0, 1] 50 =
      .done (.error (.undefinedNodes l)) := by
  refine ⟨[_], [], [_], ⟨rfl, ?_, by simp, ?_⟩, by simp, ?_, ?_⟩
  · intro t ht; cases List.mem_singleton.1 ht; exact ⟨rfl, rfl⟩
  · intro t ht; cases List.mem_singleton.1 ht; exact ⟨rfl, rfl⟩
  · intro ch hc
    simp only [lackDefs, List.mem_cons, Option.some.injEq, reduceCtorEq, List.not_mem_nil, or_false] at hc
    subst hc
    simp [WF, WFs, IsBody, Chunk.Below, Chunk.BelowAll, refs, refsAll, lackDefs]
  · have h : (match compile id (fun _ t => t) [typeEntry [] (bytesOf "n") (some (bytesOf "a")), literalEntry (bytesOf "a", false)] lackDefs [0, 1] [0, 1] [0, 1] 50 with
      | .done (.error (.undefinedNodes _)) => true
      | _ => false) = true := by decide +kernel
    split at h
    · next l hl => exact ⟨l, hl⟩
    · cases h

end Verif.Props
