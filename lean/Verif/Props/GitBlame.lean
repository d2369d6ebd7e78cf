import Verif.Model.GitBlame
import Verif.Spec.GitBlame
/-!
# C41: the `git blame` parser
-/
namespace Ripsrc
open Spec

/-- `metasByCommit` agrees with the entries read so far. -/
def MetasOk (metas : GoMap Str (GoMap Str Str)) (before : List BlameEntry) : Prop :=
  ∀ h, match before.reverse.find? (fun x => decide (x.hash = h ∧ x.info ≠ [])) with
    | some x => ∃ m, metas.get h = some m ∧ ∀ k, m.get k = infoValue x.info k
    | none => metas.get h = none

theorem blameKV_none (k : Str) (h : (32 : UInt8) ∉ k) : blameKV k = (k, []) := by
  induction k with
  | nil => rfl
  | cons b k ih =>
    simp only [List.mem_cons, not_or] at h
    simp only [blameKV]
    rw [if_neg (Ne.symm h.1), ih h.2]

theorem blameKV_some (k v : Str) (h : (32 : UInt8) ∉ k) : blameKV (k ++ 32 :: v) = (k, v) := by
  induction k with
  | nil => rfl
  | cons b k ih =>
    simp only [List.mem_cons, not_or] at h
    simp only [List.cons_append, blameKV]
    rw [if_neg (Ne.symm h.1), ih h.2]

theorem blameKV_infoLine (kv : Str × Option Str) (h : (32 : UInt8) ∉ kv.1) :
    blameKV (BlameEntry.infoLine kv) = (kv.1, kv.2.getD []) := by
  obtain ⟨k, v⟩ := kv
  cases v with
  | none => exact blameKV_none k h
  | some v => exact blameKV_some k v h

/-- The inner loop over metadata lines. -/
theorem blameLoop_info (metas : GoMap Str (GoMap Str Str)) (h : Str) (m : GoMap Str Str) (info : List (Str × Option Str))
    (rest : List Str)
    (hok : ∀ kv ∈ info, kv.1 ≠ [] ∧ NoNL kv.1 ∧ (32 : UInt8) ∉ kv.1 ∧ kv.1.head? ≠ some 9 ∧ ∀ v, kv.2 = some v → NoNL v) :
    blameLoop metas (some (h, m)) (info.map BlameEntry.infoLine ++ rest) =
      blameLoop metas (some (h, info.foldl (fun m kv => m.set kv.1 (kv.2.getD [])) m)) rest := by
  induction info generalizing m with
  | nil => rfl
  | cons kv info ih =>
    obtain ⟨h1, _, h3, h4, _⟩ := hok kv (by simp)
    have hkv := blameKV_infoLine kv h3
    obtain ⟨c, t, hct⟩ : ∃ c t, BlameEntry.infoLine kv = c :: t ∧ c ≠ 9 := by
      obtain ⟨k, v⟩ := kv
      cases k with
      | nil => exact absurd rfl h1
      | cons c k =>
        have : c ≠ 9 := by simpa using h4
        cases v with
        | none => exact ⟨c, k, rfl, this⟩
        | some v => exact ⟨c, k ++ 32 :: v, rfl, this⟩
    simp only [List.map_cons, List.cons_append, List.foldl_cons]
    rw [← ih _ (fun x hx => hok x (by simp [hx]))]
    rw [hct.1] at hkv ⊢
    conv => lhs; unfold blameLoop
    simp only [hct.2, ne_eq, not_false_eq_true, if_true]
    rw [hkv]

theorem blameFold_get (info : List (Str × Option Str)) (m : GoMap Str Str) (k : Str) :
    (info.foldl (fun m kv => GoMap.set m kv.1 (kv.2.getD [])) m).get k =
      match infoValue info k with
      | some v => some v
      | none => m.get k := by
  induction info generalizing m with
  | nil => rfl
  | cons kv info ih =>
    simp only [List.foldl_cons]
    rw [ih]
    simp only [infoValue, List.reverse_cons, List.find?_append]
    cases hf : info.reverse.find? (fun kv => decide (kv.1 = k)) with
    | some x => simp
    | none =>
      simp only [Option.none_or, List.find?_cons, List.find?_nil, Option.map_none]
      by_cases hk : kv.1 = k
      · simp [hk]
      · simp [hk, GoMap.get_set]

theorem blameFold_ne_nil (info : List (Str × Option Str)) (m : GoMap Str Str) (h : info ≠ [] ∨ m ≠ []) :
    info.foldl (fun m kv => GoMap.set m kv.1 (kv.2.getD [])) m ≠ [] := by
  induction info generalizing m with
  | nil => simpa using h
  | cons kv info ih =>
    simp only [List.foldl_cons]
    apply ih
    right
    cases m with
    | nil => simp [GoMap.set]
    | cons e m => obtain ⟨a, w⟩ := e; simp only [GoMap.set]; split <;> simp

/-- What the result must be for the entries `es` printed after `before`. -/
def BlameRes (before : List BlameEntry) : List BlameEntry → List BlameLine → Prop
  | [], [] => True
  | e :: es, r :: rs => r.hash = e.hash ∧ r.content = e.content ∧ (∀ k, r.info.get k = infoValue (infoInForce before e) k) ∧
      BlameRes (before ++ [e]) es rs
  | _, _ => False

theorem blameLoop_entries (es : List BlameEntry) (hok : ∀ e ∈ es, e.Ok) (tail : List Str) (ht : tail = [] ∨ tail = [[]])
    (before : List BlameEntry) (metas : GoMap Str (GoMap Str Str)) (hm : MetasOk metas before) :
    ∃ rs, blameLoop metas none (es.flatMap BlameEntry.lines ++ tail) = .ok rs ∧ BlameRes before es rs := by
  induction es generalizing before metas with
  | nil =>
    refine ⟨[], ?_, trivial⟩
    rcases ht with rfl | rfl <;> simp [blameLoop]
  | cons e es ih =>
    have ho := hok e (by simp)
    have hsplit : (splitByte 32 (e.hash ++ e.header)).headD [] = e.hash := by
      rcases ho.header.2 with h | h
      · rw [h, List.append_nil, splitByte_last _ _ ho.hash.2.2]; rfl
      · obtain ⟨r, hr⟩ : ∃ r, e.header = 32 :: r := by
          cases hh : e.header with
          | nil => rw [hh] at h; cases h
          | cons c r => rw [hh] at h; simp at h; exact ⟨r, by rw [h]⟩
        rw [hr, splitByte_append _ _ _ ho.hash.2.2]; rfl
    have hne : e.hash ++ e.header ≠ [] := by simp [ho.hash.1]
    have hstep : blameLoop metas none ((e :: es).flatMap BlameEntry.lines ++ tail) =
        blameLoop metas (some (e.hash, e.info.foldl (fun m kv => GoMap.set m kv.1 (kv.2.getD [])) []))
          ((9 :: e.content) :: (es.flatMap BlameEntry.lines ++ tail)) := by
      rw [List.flatMap_cons]
      simp only [BlameEntry.lines, List.append_assoc, List.cons_append, List.nil_append]
      conv => lhs; unfold blameLoop
      rw [if_neg (by simp [ho.hash.1]), hsplit]
      exact blameLoop_info metas e.hash [] e.info _ ho.info
    rw [hstep]
    by_cases hi : e.info = []
    · have hm' : MetasOk metas (before ++ [e]) := by
        intro h
        have := hm h
        simp only [List.reverse_append, List.reverse_cons, List.reverse_nil, List.nil_append, List.singleton_append,
          List.find?_cons]
        simpa [hi] using this
      obtain ⟨rs, h1, h2⟩ := ih (fun x hx => hok x (by simp [hx])) (before ++ [e]) metas hm'
      refine ⟨{ hash := e.hash, content := e.content, info := (metas.get e.hash).getD [] } :: rs, ?_, rfl, rfl, ?_, h2⟩
      · conv => lhs; unfold blameLoop
        simp [hi, h1]
        rfl
      · intro k
        have := hm e.hash
        simp only [infoInForce, hi, ne_eq, not_true_eq_false, if_false]
        revert this
        cases before.reverse.find? (fun x => decide (x.hash = e.hash ∧ x.info ≠ [])) with
        | none => intro this; simp only at this; simp [this, infoValue]
        | some x =>
          rintro ⟨m, hm1, hm2⟩
          simp [hm1, hm2]
    · have hm' : MetasOk (metas.set e.hash (e.info.foldl (fun m kv => GoMap.set m kv.1 (kv.2.getD [])) [])) (before ++ [e]) := by
        intro h
        have := hm h
        simp only [List.reverse_append, List.reverse_cons, List.reverse_nil, List.nil_append, List.singleton_append,
          List.find?_cons]
        by_cases hh : e.hash = h
        · simp only [hh, hi, ne_eq, not_false_eq_true, and_self, decide_true]
          refine ⟨_, GoMap.get_set_self _ _ _, fun k => ?_⟩
          rw [blameFold_get]
          cases infoValue e.info k <;> rfl
        · simp only [hh, false_and, decide_false]
          rw [GoMap.get_set_ne _ _ hh]
          exact this
      obtain ⟨rs, h1, h2⟩ := ih (fun x hx => hok x (by simp [hx])) (before ++ [e]) _ hm'
      refine ⟨{ hash := e.hash, content := e.content, info := e.info.foldl (fun m kv => GoMap.set m kv.1 (kv.2.getD [])) [] } :: rs, ?_, rfl, rfl, ?_, h2⟩
      · conv => lhs; unfold blameLoop
        simp [blameFold_ne_nil e.info [] (Or.inl hi), h1]
        rfl
      · intro k
        simp only [infoInForce, hi, ne_eq, not_false_eq_true, if_true]
        rw [blameFold_get]
        cases infoValue e.info k <;> rfl

theorem blame_lines_noNL {es : List BlameEntry} (h : ∀ e ∈ es, e.Ok) : ∀ l ∈ es.flatMap BlameEntry.lines, NoNL l := by
  intro l hl
  obtain ⟨e, he, hl⟩ := List.mem_flatMap.1 hl
  have ho := h e he
  simp only [BlameEntry.lines, List.mem_cons, List.mem_append, List.mem_map, List.not_mem_nil, or_false] at hl
  rcases hl with rfl | ⟨kv, hkv, rfl⟩ | rfl
  · simp only [NoNL, List.mem_append, not_or]
    exact ⟨ho.hash.2.1, ho.header.1⟩
  · obtain ⟨_, h2, _, _, h5⟩ := ho.info kv hkv
    obtain ⟨k, v⟩ := kv
    cases v with
    | none => exact h2
    | some v =>
      have := h5 v rfl
      simp only [NoNL, BlameEntry.infoLine, List.mem_append, List.mem_cons, not_or] at *
      exact ⟨h2, by decide, this⟩
  · have := ho.content
    simp only [NoNL, List.mem_cons, not_or] at *
    exact ⟨by decide, this⟩

theorem splitByte_unlines (ls : List Str) (h : ∀ l ∈ ls, NoNL l) : splitByte 10 (unlines ls) = ls ++ [[]] := by
  induction ls with
  | nil => rfl
  | cons l ls ih =>
    rw [unlines_cons, splitByte_append _ _ _ (h l (by simp)), ih (fun x hx => h x (by simp [hx]))]
    rfl

theorem blameRes_get {before es : List BlameEntry} {rs : List BlameLine} (h : BlameRes before es rs) :
    rs.map (fun r => (r.hash, r.content)) = es.map (fun e => (e.hash, e.content)) ∧
    ∀ (i : Nat) (e : BlameEntry) (r : BlameLine), es[i]? = some e → rs[i]? = some r →
      ∀ k, r.info.get k = infoValue (infoInForce (before ++ es.take i) e) k := by
  induction es generalizing before rs with
  | nil =>
    cases rs with
    | nil => simp
    | cons r rs => exact h.elim
  | cons e es ih =>
    cases rs with
    | nil => exact h.elim
    | cons r rs =>
      obtain ⟨h1, h2, h3, h4⟩ := h
      obtain ⟨i1, i2⟩ := ih h4
      refine ⟨by simp [h1, h2, i1], ?_⟩
      intro i e' r' he hr k
      cases i with
      | zero =>
        simp only [List.getElem?_cons_zero, Option.some.injEq] at he hr
        subst he hr
        simpa using h3 k
      | succ i =>
        simp only [List.getElem?_cons_succ] at he hr
        have := i2 i e' r' he hr k
        simpa using this

/-- **C41.** For every well-formed porcelain output, with or without the final newline, the parser returns one entry per blamed
line, in order, with the line's commit and its exact content, and the metadata in force for it: the one printed with the line,
or else the one printed the last time for the same commit. -/
theorem C41_blame_parser (es : List BlameEntry) (h : ∀ e ∈ es, e.Ok) (data : Str)
    (hd : data = blameText es ∨ (es ≠ [] ∧ data = joinWith [10] (es.flatMap BlameEntry.lines))) :
    ∃ rs, parseBlame data = .ok rs ∧
      rs.map (fun r => (r.hash, r.content)) = es.map (fun e => (e.hash, e.content)) ∧
      ∀ (i : Nat) (e : BlameEntry) (r : BlameLine), es[i]? = some e → rs[i]? = some r →
        ∀ k, r.info.get k = infoValue (infoInForce (es.take i) e) k := by
  have hm : MetasOk [] [] := fun h => rfl
  have hn := blame_lines_noNL h
  rcases hd with rfl | ⟨hne, rfl⟩
  · obtain ⟨rs, h1, h2⟩ := blameLoop_entries es h [[]] (Or.inr rfl) [] [] hm
    refine ⟨rs, ?_, (blameRes_get h2).1, fun i e r he hr k => ?_⟩
    · rw [parseBlame, blameText, splitByte_unlines _ hn]; exact h1
    · simpa using (blameRes_get h2).2 i e r he hr k
  · obtain ⟨rs, h1, h2⟩ := blameLoop_entries es h [] (Or.inl rfl) [] [] hm
    refine ⟨rs, ?_, (blameRes_get h2).1, fun i e r he hr k => ?_⟩
    · rw [parseBlame, splitByte_join _ _ _ hn]
      · simpa using h1
      · cases es with
        | nil => exact absurd rfl hne
        | cons e es => simp [BlameEntry.lines]
    · simpa using (blameRes_get h2).2 i e r he hr k

/-- **C41.** `Run` returns the commit and the exact content of every line of the file, in order. -/
theorem C41_blame_result (es : List BlameEntry) (h : ∀ e ∈ es, e.Ok) :
    blameResult (blameText es) = .ok (es.map (fun e => (e.hash, e.content))) := by
  obtain ⟨rs, h1, h2, _⟩ := C41_blame_parser es h _ (Or.inl rfl)
  simp only [blameResult, h1]
  exact congrArg Except.ok h2

/-- Two commits, metadata printed once; a content line which looks like a header, one which is empty, one with a tab. -/
def exBlame : List BlameEntry :=
  [{ hash := b!"b4da", header := b!" 1 1 2", info := [(b!"author", some b!"User 1"), (b!"boundary", none)], content := b!"c0ff 1 1" },
   { hash := b!"b4da", header := b!" 2 2", content := [] },
   { hash := b!"69ba", header := b!" 4 4 1", info := [(b!"summary", some []), (b!"filename", some b!"a")], content := b!"\tx" },
   { hash := b!"b4da", header := b!" 7 5 1", content := b!"}" }]

instance (e : BlameEntry) : Decidable e.Ok :=
  decidable_of_iff
    ((e.hash ≠ [] ∧ NoNL e.hash ∧ (32 : UInt8) ∉ e.hash) ∧ (NoNL e.header ∧ (e.header = [] ∨ e.header.head? = some 32)) ∧
     (∀ kv ∈ e.info, kv.1 ≠ [] ∧ NoNL kv.1 ∧ (32 : UInt8) ∉ kv.1 ∧ kv.1.head? ≠ some 9 ∧ NoNL (kv.2.getD [])) ∧ NoNL e.content)
    ⟨fun ⟨a, b, c, d⟩ => ⟨a, b, fun kv hkv => by
        obtain ⟨c1, c2, c3, c4, c5⟩ := c kv hkv
        refine ⟨c1, c2, c3, c4, fun v hv => ?_⟩
        rw [hv] at c5; exact c5, d⟩,
     fun ⟨a, b, c, d⟩ => ⟨a, b, fun kv hkv => by
        obtain ⟨c1, c2, c3, c4, c5⟩ := c kv hkv
        refine ⟨c1, c2, c3, c4, ?_⟩
        cases hv : kv.2 with
        | none => simp [NoNL]
        | some v => exact c5 v hv, d⟩⟩

example : ∀ e ∈ exBlame, e.Ok := by decide
example : infoValue (infoInForce (exBlame.take 3) { hash := b!"b4da", header := b!" 7 5 1", content := b!"}" }) b!"author"
    = some b!"User 1" := by decide
example : parseBlame (blameText exBlame) = .ok
    [⟨b!"b4da", b!"c0ff 1 1", [(b!"author", b!"User 1"), (b!"boundary", [])]⟩,
     ⟨b!"b4da", [], [(b!"author", b!"User 1"), (b!"boundary", [])]⟩,
     ⟨b!"69ba", b!"\tx", [(b!"summary", []), (b!"filename", b!"a")]⟩,
     ⟨b!"b4da", b!"}", [(b!"author", b!"User 1"), (b!"boundary", [])]⟩] := by decide

/-- Git prints `filename` (and `previous`) again when a commit contributes lines from a second path. The parser then replaces
the whole metadata of the commit, so later lines of the same commit lose its author. -/
theorem C41_second_path_loses_author : ∃ es : List BlameEntry, (∀ e ∈ es, e.Ok) ∧
    ∃ rs, parseBlame (blameText es) = .ok rs ∧ rs.map (fun r => r.info.get b!"author") = [some b!"U", none, none] := by
  refine ⟨[{ hash := b!"aa", header := b!" 1 1 1", info := [(b!"author", some b!"U"), (b!"filename", some b!"a")], content := b!"x" },
     { hash := b!"aa", header := b!" 1 2 1", info := [(b!"filename", some b!"b")], content := b!"y" },
     { hash := b!"aa", header := b!" 2 3 1", content := b!"z" }], by decide,
     [⟨b!"aa", b!"x", [(b!"author", b!"U"), (b!"filename", b!"a")]⟩, ⟨b!"aa", b!"y", [(b!"filename", b!"b")]⟩,
      ⟨b!"aa", b!"z", [(b!"filename", b!"b")]⟩], by decide, by decide⟩

theorem blameLoop_records (ls : List Str) : ∀ (metas : GoMap Str (GoMap Str Str)),
    (∀ rs, blameLoop metas none ls = .ok rs →
      ∃ recs : List (Str × List Str × Str), (ls = recs.flatMap (fun r => r.1 :: (r.2.1 ++ [9 :: r.2.2])) ∨
        ls = recs.flatMap (fun r => r.1 :: (r.2.1 ++ [9 :: r.2.2])) ++ [[]]) ∧
        (∀ r ∈ recs, ∀ m ∈ r.2.1, m ≠ [] ∧ m.head? ≠ some 9) ∧
        rs.map (fun r => (r.hash, r.content)) = recs.map (fun r => ((splitByte 32 r.1).headD [], r.2.2))) ∧
    (∀ h m rs, blameLoop metas (some (h, m)) ls = .ok rs →
      ∃ (ms : List Str) (ct : Str) (recs : List (Str × List Str × Str)),
        (ls = ms ++ (9 :: ct) :: recs.flatMap (fun r => r.1 :: (r.2.1 ++ [9 :: r.2.2])) ∨
         ls = ms ++ (9 :: ct) :: (recs.flatMap (fun r => r.1 :: (r.2.1 ++ [9 :: r.2.2])) ++ [[]])) ∧
        (∀ x ∈ ms, x ≠ [] ∧ x.head? ≠ some 9) ∧
        (∀ r ∈ recs, ∀ m ∈ r.2.1, m ≠ [] ∧ m.head? ≠ some 9) ∧
        rs.map (fun r => (r.hash, r.content)) = (h, ct) :: recs.map (fun r => ((splitByte 32 r.1).headD [], r.2.2))) := by
  induction ls with
  | nil =>
    intro metas
    refine ⟨?_, ?_⟩
    · intro rs h
      simp only [blameLoop, Except.ok.injEq] at h
      exact ⟨[], Or.inl rfl, by simp, by simp [← h]⟩
    · intro h m rs hh
      simp [blameLoop] at hh
  | cons l ls ih =>
    intro metas
    refine ⟨?_, ?_⟩
    · intro rs h
      simp only [blameLoop] at h
      by_cases hl : l = [] ∧ ls = []
      · rw [if_pos hl] at h
        simp only [Except.ok.injEq] at h
        exact ⟨[], Or.inr (by simp [hl.1, hl.2]), by simp, by simp [← h]⟩
      · rw [if_neg hl] at h
        obtain ⟨ms, ct, recs, h1, h2, h3, h4⟩ := (ih metas).2 _ _ _ h
        refine ⟨(l, ms, ct) :: recs, ?_, ?_, by simpa using h4⟩
        · rcases h1 with h1 | h1
          · exact Or.inl (by simp [h1])
          · exact Or.inr (by simp [h1])
        · intro r hr
          rcases List.mem_cons.1 hr with rfl | hr
          · exact h2
          · exact h3 r hr
    · intro h m rs hh
      cases l with
      | nil => simp [blameLoop] at hh
      | cons c t =>
        simp only [blameLoop] at hh
        by_cases hc : c ≠ 9
        · rw [if_pos hc] at hh
          obtain ⟨ms, ct, recs, h1, h2, h3, h4⟩ := (ih metas).2 _ _ _ hh
          refine ⟨(c :: t) :: ms, ct, recs, ?_, ?_, h3, h4⟩
          · rcases h1 with h1 | h1
            · exact Or.inl (by simp [h1])
            · exact Or.inr (by simp [h1])
          · intro x hx
            rcases List.mem_cons.1 hx with rfl | hx
            · exact ⟨by simp, by simpa using hc⟩
            · exact h2 x hx
        · rw [if_neg hc] at hh
          have hc9 : c = 9 := by simpa using hc
          subst hc9
          have key : ∀ (metas' : GoMap Str (GoMap Str Str)) info rs,
              (do let r ← blameLoop metas' none ls; Except.ok ((⟨h, t, info⟩ : BlameLine) :: r) : Go _) = .ok rs →
              ∃ (ms : List Str) (ct : Str) (recs : List (Str × List Str × Str)),
                ((9 :: t) :: ls = ms ++ (9 :: ct) :: recs.flatMap (fun r => r.1 :: (r.2.1 ++ [9 :: r.2.2])) ∨
                 (9 :: t) :: ls = ms ++ (9 :: ct) :: (recs.flatMap (fun r => r.1 :: (r.2.1 ++ [9 :: r.2.2])) ++ [[]])) ∧
                (∀ x ∈ ms, x ≠ [] ∧ x.head? ≠ some 9) ∧
                (∀ r ∈ recs, ∀ m ∈ r.2.1, m ≠ [] ∧ m.head? ≠ some 9) ∧
                rs.map (fun r => (r.hash, r.content)) = (h, ct) :: recs.map (fun r => ((splitByte 32 r.1).headD [], r.2.2)) := by
            intro metas' info rs hrs
            cases hb : blameLoop metas' none ls with
            | error e => rw [hb] at hrs; cases hrs
            | ok r =>
              rw [hb] at hrs
              simp only [bind, Except.bind, Except.ok.injEq] at hrs
              obtain ⟨recs, h1, h2, h3⟩ := (ih metas').1 r hb
              refine ⟨[], t, recs, ?_, by simp, h2, by simp [← hrs, h3]⟩
              rcases h1 with h1 | h1
              · exact Or.inl (by simp [h1])
              · exact Or.inr (by simp [h1])
          by_cases hm : m = []
          · rw [if_pos hm] at hh; exact key _ _ _ hh
          · rw [if_neg hm] at hh; exact key _ _ _ hh

/-- **C41.** Nothing is dropped, whatever the output is: if the parser returns at all, the output consists, line by line, of records
(a header line, non-empty lines not beginning with a tab, one line beginning with a tab) and possibly one final newline, and
there is one result for every record, in order, with the first word of the header and the text after the tab. -/
theorem C41_nothing_dropped (data : Str) (rs : List BlameLine) (h : parseBlame data = .ok rs) :
    ∃ recs : List (Str × List Str × Str),
      (splitByte 10 data = recs.flatMap (fun r => r.1 :: (r.2.1 ++ [9 :: r.2.2])) ∨
       splitByte 10 data = recs.flatMap (fun r => r.1 :: (r.2.1 ++ [9 :: r.2.2])) ++ [[]]) ∧
      (∀ r ∈ recs, ∀ m ∈ r.2.1, m ≠ [] ∧ m.head? ≠ some 9) ∧
      rs.map (fun r => (r.hash, r.content)) = recs.map (fun r => ((splitByte 32 r.1).headD [], r.2.2)) :=
  (blameLoop_records _ []).1 rs h

/-- An output which no git prints: an empty header line. It is a record like the others. -/
example : parseBlame b!"\n\tx\naa 1\n\ty" = .ok [⟨[], b!"x", []⟩, ⟨b!"aa", b!"y", []⟩] := by decide

end Ripsrc
