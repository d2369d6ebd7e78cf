import Verif.Spec.ReadBack
import Verif.Lib.Checkpoint
/-!
# C37: reading four arbitrary streams

Whatever bytes are in the four files (cut, damaged, mixed up), the reader returns a repository only if every stream was decoded up to its end and no pointer
dangles; and then what it returns is what the records say.
-/
namespace Ripsrc
open Spec

/-- The records the reader decodes from the four streams. -/
def Streams.records (d : Streams) : Records where
  rows := (readAll DRow.decode d.rows).1
  blames := (readAll DBlame.decode d.blames).1
  lines := (readAll DLine.decode d.lines).1
  lineData := (readAll DLineData.decode d.lineData).1

/-- Every stream was decoded up to `unexpected EOF` (and not to a decoding error). -/
def Streams.Whole (d : Streams) : Prop :=
  (readAll DRow.decode d.rows).2 = true ∧ (readAll DBlame.decode d.blames).2 = true ∧
  (readAll DLine.decode d.lines).2 = true ∧ (readAll DLineData.decode d.lineData).2 = true

theorem lastNamed_concat {α κ : Type} [DecidableEq κ] (name : α → κ) (k : κ) (l : List α) (a : α) :
    lastNamed name k (l ++ [a]) = if name a = k then some a else lastNamed name k l := by
  unfold lastNamed
  simp only [List.reverse_append, List.reverse_cons, List.reverse_nil, List.nil_append, List.singleton_append, List.find?_cons]
  by_cases h : name a = k <;> simp [h]

theorem lastNamed_nil {α κ : Type} [DecidableEq κ] (name : α → κ) (k : κ) : lastNamed name k [] = none := rfl

theorem lastNamed_isSome {α κ : Type} [DecidableEq κ] (name : α → κ) (k : κ) (l : List α) : (lastNamed name k l).isSome ↔ ∃ a ∈ l, name a = k := by
  unfold lastNamed
  rw [List.find?_isSome]
  simp

theorem lastNamed_mem {α κ : Type} [DecidableEq κ] {name : α → κ} {k : κ} {l : List α} {a : α} (h : lastNamed name k l = some a) : a ∈ l ∧ name a = k := by
  unfold lastNamed at h
  have h1 := List.mem_of_find?_eq_some h
  have h2 := List.find?_some h
  exact ⟨by simpa using h1, by simpa using h2⟩

/-- Induction from the end of a list. -/
theorem snoc_induction {α : Type} {P : List α → Prop} (h0 : P []) (h1 : ∀ l a, P l → P (l ++ [a])) (l : List α) : P l := by
  rw [← l.reverse_reverse]
  induction l.reverse with
  | nil => exact h0
  | cons a r ih => rw [List.reverse_cons]; exact h1 _ _ ih

theorem get_loadLineData (rs : List DLineData) (k : UInt64) : GoMap.get (loadLineData rs) k = (lastNamed DLineData.pointer k rs).map (·.data) := by
  induction rs using snoc_induction with
  | h0 => rfl
  | h1 l a ih =>
    have e : loadLineData (l ++ [a]) = GoMap.set (loadLineData l) a.pointer a.data := by simp [loadLineData]
    rw [e, GoMap.get_set, lastNamed_concat, ih]
    by_cases h : a.pointer = k <;> simp [h]

theorem foldlM_snoc {α β : Type} (f : β → α → Go β) (l : List α) (a : α) (b : β) : (l ++ [a]).foldlM f b = (l.foldlM f b >>= fun x => f x a) := by
  simp [List.foldlM_append]

/-- A loop that sets one entry per record, computed by `val`. -/
theorem load_iff {α κ β : Type} [DecidableEq κ] {f : GoMap κ β → α → Go (GoMap κ β)} {name : α → κ} {val : α → Option β}
    (hs : ∀ m a v, val a = some v → f m a = .ok (GoMap.set m (name a) v)) (hn : ∀ m a, val a = none → ∃ e, f m a = .error e) (l : List α) :
    ((∃ m, l.foldlM f [] = .ok m) ↔ ∀ a ∈ l, (val a).isSome) ∧ ∀ m, l.foldlM f [] = .ok m → ∀ k, GoMap.get m k = (lastNamed name k l).bind val := by
  induction l using snoc_induction with
  | h0 => exact ⟨by simp [pure, Except.pure], fun m hm k => by simp [pure, Except.pure] at hm; subst hm; rfl⟩
  | h1 l a ih =>
    rw [foldlM_snoc]
    cases hl : l.foldlM f ([] : GoMap κ β) with
    | error e =>
      rw [hl] at ih
      refine ⟨⟨fun ⟨m, hm⟩ => (by cases hm), fun h => ?_⟩, fun m hm => by cases hm⟩
      obtain ⟨m, hm⟩ := ih.1.2 (fun x hx => h x (by simp [hx]))
      cases hm
    | ok m0 =>
      rw [hl] at ih
      cases hv : val a with
      | none =>
        obtain ⟨e, he⟩ := hn m0 a hv
        refine ⟨⟨fun ⟨m, hm⟩ => ?_, fun h => ?_⟩, fun m hm => ?_⟩
        · have hm : f m0 a = .ok m := hm
          rw [he] at hm; cases hm
        · have := h a (by simp)
          rw [hv] at this; cases this
        · have hm : f m0 a = .ok m := hm
          rw [he] at hm; cases hm
      | some v =>
        refine ⟨⟨fun _ x hx => ?_, fun _ => ⟨_, hs m0 a v hv⟩⟩, fun m hm k => ?_⟩
        · rcases List.mem_append.1 hx with h | h
          · exact ih.1.1 ⟨m0, rfl⟩ x h
          · simp at h; subst h; rw [hv]; rfl
        · have hm : f m0 a = .ok m := hm
          rw [hs m0 a v hv] at hm
          injection hm with hm; subst hm
          rw [GoMap.get_set, lastNamed_concat, ih.2 m0 rfl k]
          by_cases h : name a = k <;> simp [h, hv]

theorem loadBlameLines_eq (lines : GoMap UInt64 Line) (ps : List UInt64) :
    (∀ v, ps.mapM (fun k => GoMap.get lines k) = some v → loadBlameLines lines ps = .ok v) ∧
    (ps.mapM (fun k => GoMap.get lines k) = none → ∃ e, loadBlameLines lines ps = .error e) := by
  induction ps with
  | nil => exact ⟨fun v h => by simp at h; subst h; rfl, fun h => by simp at h⟩
  | cons p ps ih =>
    simp only [List.mapM_cons, loadBlameLines]
    cases hp : GoMap.get lines p with
    | none => exact ⟨fun v h => (by cases h), fun _ => ⟨_, rfl⟩⟩
    | some l =>
      cases hps : ps.mapM (fun k => GoMap.get lines k) with
      | none =>
        obtain ⟨e, he⟩ := ih.2 hps
        refine ⟨fun v h => (by cases h), fun _ => ⟨e, ?_⟩⟩
        simp only [he]; rfl
      | some ls =>
        refine ⟨fun v h => ?_, fun h => by cases h⟩
        have h : some (l :: ls) = some v := h
        injection h with h; subst h
        simp only [ih.1 ls hps]; rfl

theorem loadRows_iff (bm : GoMap UInt64 Blame) (rs : List DRow) :
    ((∃ R, loadRows bm rs = .ok R) ↔ ∀ x ∈ rs, (GoMap.get bm x.blamePointer).isSome) ∧
    ∀ R, loadRows bm rs = .ok R →
      (∀ c f, ((GoMap.get R c).bind (fun fs => GoMap.get fs f)) = (lastNamed (fun x : DRow => (x.commit, x.path)) (c, f) rs).bind (fun x => GoMap.get bm x.blamePointer)) ∧
      ∀ c, (GoMap.get R c).isSome ↔ ∃ x ∈ rs, x.commit = c := by
  unfold loadRows
  induction rs using snoc_induction with
  | h0 =>
    refine ⟨by simp [pure, Except.pure], fun R h => ?_⟩
    simp [pure, Except.pure] at h; subst h
    exact ⟨fun c f => rfl, by simp⟩
  | h1 l a ih =>
    rw [foldlM_snoc]
    generalize l.foldlM (m := Except Fault) _ ([] : Repo) = o at ih ⊢
    cases o with
    | error e =>
      refine ⟨⟨fun ⟨R, h⟩ => (by cases h), fun h => ?_⟩, fun R h => by cases h⟩
      obtain ⟨m, hm⟩ := ih.1.2 (fun x hx => h x (by simp [hx]))
      cases hm
    | ok R0 =>
      obtain ⟨i1, i2⟩ := ih.2 R0 rfl
      simp only [bind, Except.bind]
      cases hb : GoMap.get bm a.blamePointer with
      | none =>
        refine ⟨⟨fun ⟨R, h⟩ => (by cases h), fun h => ?_⟩, fun R h => by cases h⟩
        have := h a (by simp)
        rw [hb] at this; cases this
      | some bl =>
        refine ⟨⟨fun _ x hx => ?_, fun _ => ⟨_, rfl⟩⟩, fun R h => ?_⟩
        · rcases List.mem_append.1 hx with h | h
          · exact ih.1.1 ⟨R0, rfl⟩ x h
          · simp at h; subst h; rw [hb]; rfl
        · injection h with h; subst h
          refine ⟨fun c f => ?_, fun c => ?_⟩
          · rw [GoMap.get_set, lastNamed_concat]
            by_cases hc : a.commit = c
            · subst hc
              rw [if_pos rfl]
              have := i1 a.commit f
              simp only [Option.bind_some, GoMap.get_set]
              by_cases hf : a.path = f
              · simp [hf, hb]
              · rw [if_neg hf, if_neg (by simp [hf]), ← this]
                cases GoMap.get R0 a.commit <;> rfl
            · rw [if_neg hc, if_neg (by simp [hc])]
              exact i1 c f
          · rw [GoMap.get_set]
            by_cases hc : a.commit = c
            · simp [hc]
            · rw [if_neg hc, i2 c]
              simp [hc]

theorem bind_ok_iff {α β : Type} {x : Go α} {f : α → Go β} {b : β} : (x >>= f) = .ok b ↔ ∃ a, x = .ok a ∧ f a = .ok b := by
  cases x with
  | error e => exact ⟨fun h => (by cases h), fun ⟨a, h, _⟩ => by cases h⟩
  | ok a => exact ⟨fun h => ⟨a, rfl, h⟩, fun ⟨a', h, h'⟩ => by injection h with h; subst h; exact h'⟩

theorem endOk_iff {b : Bool} {u : Unit} : endOk b = .ok u ↔ b = true := by cases b <;> simp [endOk]

theorem readStreams_ok_iff (d : Streams) (R : Repo) : readStreams d = .ok R ↔ d.Whole ∧ ∃ lm bm, loadLines (loadLineData d.records.lineData) d.records.lines = .ok lm ∧
    loadBlames lm d.records.blames = .ok bm ∧ loadRows bm d.records.rows = .ok R := by
  simp only [readStreams, bind_ok_iff, endOk_iff, Streams.Whole, Streams.records]
  constructor
  · rintro ⟨_, h1, lm, h2, _, h3, bm, h4, _, h5, R', h6, _, h7, h8⟩
    injection h8 with h8; subst h8
    exact ⟨⟨h7, h5, h3, h1⟩, lm, bm, h2, h4, h6⟩
  · rintro ⟨⟨h7, h5, h3, h1⟩, lm, bm, h2, h4, h6⟩
    exact ⟨(), h1, lm, h2, (), h3, bm, h4, (), h5, R, h6, (), h7, rfl⟩

theorem loadLines_spec (ld : List DLineData) (rs : List DLine) :
    ((∃ lm, loadLines (loadLineData ld) rs = .ok lm) ↔ ∀ l ∈ rs, ∃ x ∈ ld, x.pointer = l.lineDataPointer) ∧
    ∀ lm, loadLines (loadLineData ld) rs = .ok lm → ∀ k, GoMap.get lm k = (lastNamed DLine.pointer k rs).bind (fun l =>
      (lastNamed DLineData.pointer l.lineDataPointer ld).map (fun x => { line := x.data, commit := l.commit })) := by
  have h := load_iff (κ := UInt64) (β := Line) (f := fun m (r : DLine) => match GoMap.get (loadLineData ld) r.lineDataPointer with
      | none => .error (.panic "line data")
      | some v => .ok (GoMap.set m r.pointer { line := v, commit := r.commit })) (name := DLine.pointer)
      (val := fun r => (lastNamed DLineData.pointer r.lineDataPointer ld).map (fun x => { line := x.data, commit := r.commit }))
      (by intro m a v h
          simp only [Option.map_eq_some_iff] at h
          obtain ⟨w, h1, h2⟩ := h
          simp only [get_loadLineData, h1, Option.map_some]; rw [← h2])
      (by intro m a h
          simp only [Option.map_eq_none_iff] at h
          exact ⟨.panic "line data", by simp only [get_loadLineData, h, Option.map_none]⟩) rs
  refine ⟨h.1.trans ?_, h.2⟩
  simp only [Option.isSome_map, lastNamed_isSome]

theorem mapM_isSome {α β : Type} (f : α → Option β) (l : List α) : (l.mapM f).isSome ↔ ∀ a ∈ l, (f a).isSome := by
  induction l with
  | nil => simp
  | cons a l ih =>
    simp only [List.mapM_cons, List.forall_mem_cons, ← ih]
    cases f a with
    | none => simp
    | some b => cases l.mapM f <;> simp

theorem loadBlames_spec (lm : GoMap UInt64 Line) (rs : List DBlame) :
    ((∃ bm, loadBlames lm rs = .ok bm) ↔ ∀ b ∈ rs, ∀ k ∈ b.linePointers, (GoMap.get lm k).isSome) ∧
    ∀ bm, loadBlames lm rs = .ok bm → ∀ k, GoMap.get bm k = (lastNamed DBlame.pointer k rs).bind (fun r =>
      (r.linePointers.mapM (fun k => GoMap.get lm k)).map (fun ls => { commit := r.commit, lines := ls, isBinary := r.isBinary })) := by
  have h := load_iff (κ := UInt64) (β := Blame) (f := fun m (r : DBlame) => do
      let ls ← loadBlameLines lm r.linePointers
      .ok (GoMap.set m r.pointer { commit := r.commit, lines := ls, isBinary := r.isBinary })) (name := DBlame.pointer)
      (val := fun r => (r.linePointers.mapM (fun k => GoMap.get lm k)).map (fun ls => { commit := r.commit, lines := ls, isBinary := r.isBinary }))
      (by intro m a v h
          simp only [Option.map_eq_some_iff] at h
          obtain ⟨w, h1, h2⟩ := h
          simp only [(loadBlameLines_eq lm _).1 _ h1]; rw [← h2]; rfl)
      (by intro m a h
          simp only [Option.map_eq_none_iff] at h
          obtain ⟨e, he⟩ := (loadBlameLines_eq lm _).2 h
          exact ⟨e, by simp only [he]; rfl⟩) rs
  refine ⟨h.1.trans ?_, h.2⟩
  simp only [Option.isSome_map, mapM_isSome]

/-- A line pointer that is named by a line record leads to a line, if no line record dangles. -/
theorem lineOf_isSome {r : Records} (h : ∀ l ∈ r.lines, ∃ x ∈ r.lineData, x.pointer = l.lineDataPointer) (k : UInt64) :
    ((lastNamed DLine.pointer k r.lines).bind (fun l =>
      (lastNamed DLineData.pointer l.lineDataPointer r.lineData).map (fun x => ({ line := x.data, commit := l.commit } : Line)))).isSome ↔
    ∃ l ∈ r.lines, l.pointer = k := by
  rw [← lastNamed_isSome]
  cases hl : lastNamed DLine.pointer k r.lines with
  | none => simp
  | some l =>
    have := h l (lastNamed_mem hl).1
    rw [← lastNamed_isSome] at this
    simp [this]

/-- **C37 (soundness).** Whatever the four streams contain, the reader succeeds exactly if each of them was decoded up to its end and no pointer dangles. -/
theorem C37_read_iff (d : Streams) : (∃ R, readStreams d = .ok R) ↔ d.Whole ∧ Resolved d.records := by
  simp only [readStreams_ok_iff]
  constructor
  · rintro ⟨R, hw, lm, bm, h1, h2, h3⟩
    have hl := (loadLines_spec d.records.lineData d.records.lines).1.1 ⟨lm, h1⟩
    have hlg := (loadLines_spec d.records.lineData d.records.lines).2 lm h1
    have hb := (loadBlames_spec lm d.records.blames).1.1 ⟨bm, h2⟩
    have hbg := (loadBlames_spec lm d.records.blames).2 bm h2
    have hr := (loadRows_iff bm d.records.rows).1.1 ⟨R, h3⟩
    refine ⟨hw, hl, ?_, ?_⟩
    · intro b hbm k hk
      have := hb b hbm k hk
      rw [hlg k, lineOf_isSome hl] at this
      exact this
    · intro x hx
      have := hr x hx
      rw [hbg] at this
      rw [← lastNamed_isSome]
      cases hn : lastNamed DBlame.pointer x.blamePointer d.records.blames with
      | none => rw [hn] at this; cases this
      | some b => rfl
  · rintro ⟨hw, hl, hb, hr⟩
    obtain ⟨lm, h1⟩ := (loadLines_spec d.records.lineData d.records.lines).1.2 hl
    have hlg := (loadLines_spec d.records.lineData d.records.lines).2 lm h1
    have hb' : ∀ b ∈ d.records.blames, ∀ k ∈ b.linePointers, (GoMap.get lm k).isSome := by
      intro b hbm k hk
      rw [hlg k, lineOf_isSome hl]
      exact hb b hbm k hk
    obtain ⟨bm, h2⟩ := (loadBlames_spec lm d.records.blames).1.2 hb'
    have hbg := (loadBlames_spec lm d.records.blames).2 bm h2
    obtain ⟨R, h3⟩ := (loadRows_iff bm d.records.rows).1.2 (by
      intro x hx
      rw [hbg]
      have := hr x hx
      rw [← lastNamed_isSome] at this
      cases hn : lastNamed DBlame.pointer x.blamePointer d.records.blames with
      | none => rw [hn] at this; cases this
      | some b =>
        simp only [Option.bind_some, Option.isSome_map, mapM_isSome]
        exact hb' b (lastNamed_mem hn).1)
    exact ⟨R, hw, lm, bm, h1, h2, h3⟩

/-- … and then it returns what the records say: for each commit and path the blame that the last row for them leads to, and no other commit or path. -/
theorem C37_read_sound {d : Streams} {R : Repo} (h : readStreams d = .ok R) :
    (∀ c f, ((GoMap.get R c).bind (fun fs => GoMap.get fs f)) = fileOf d.records c f) ∧ ∀ c, (GoMap.get R c).isSome ↔ ∃ x ∈ d.records.rows, x.commit = c := by
  obtain ⟨hw, lm, bm, h1, h2, h3⟩ := (readStreams_ok_iff d R).1 h
  obtain ⟨g1, g2⟩ := (loadRows_iff bm d.records.rows).2 R h3
  refine ⟨fun c f => ?_, g2⟩
  have hl : (fun k => GoMap.get lm k) = lineOf d.records := by
    funext k
    rw [(loadLines_spec d.records.lineData d.records.lines).2 lm h1 k]
    unfold lineOf
    cases lastNamed DLine.pointer k d.records.lines with
    | none => rfl
    | some l => simp only [Option.bind_some, bind]; cases lastNamed DLineData.pointer l.lineDataPointer d.records.lineData <;> rfl
  rw [g1]
  unfold fileOf
  cases lastNamed (fun x : DRow => (x.commit, x.path)) (c, f) d.records.rows with
  | none => rfl
  | some x =>
    simp only [Option.bind_some, bind]
    rw [(loadBlames_spec lm d.records.blames).2 bm h2 x.blamePointer]
    unfold blameOf
    rw [hl]
    cases lastNamed DBlame.pointer x.blamePointer d.records.blames with
    | none => rfl
    | some b => simp only [Option.bind_some, bind]; cases b.linePointers.mapM (lineOf d.records) <;> rfl

/-- Streams that do read, with a replaced record; one with a dangling pointer and one with garbage at the end do not. -/
def exWhole : Records where
  rows := [{ commit := b!"c", path := b!"f", blamePointer := 1 }]
  blames := [{ pointer := 1, commit := b!"c", linePointers := [2, 2], isBinary := false }]
  lines := [{ pointer := 2, commit := b!"c", lineDataPointer := 7 }]
  lineData := [{ pointer := 7, data := b!"old" }, { pointer := 7, data := b!"new" }]

example : fileOf exWhole b!"c" b!"f" = some { commit := b!"c", lines := [⟨b!"new", b!"c"⟩, ⟨b!"new", b!"c"⟩], isBinary := false } := by decide

theorem exWhole_records : exWhole.streams.records = exWhole ∧ exWhole.streams.Whole := by
  have h1 := row_type.stream exWhole.rows (by simp [exWhole, DRow.Small])
  have h2 := blame_type.stream exWhole.blames (by simp [exWhole, DBlame.Small])
  have h3 := line_type.stream exWhole.lines (by simp [exWhole, DLine.Small])
  have h4 := lineData_type.stream exWhole.lineData (by simp [exWhole, DLineData.Small])
  simp only [Streams.records, Streams.Whole, Records.streams, h1, h2, h3, h4]
  exact ⟨trivial, trivial, trivial, trivial, trivial⟩

example : ∃ R, readStreams exWhole.streams = .ok R := by
  rw [C37_read_iff, exWhole_records.1]
  exact ⟨exWhole_records.2, by simp [exWhole], by simp [exWhole], by simp [exWhole]⟩

end Ripsrc
