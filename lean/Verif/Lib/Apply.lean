import Verif.Spec.Edit
import Verif.Lib.Text
/-! # Lemmas about `Apply` -/
namespace Ripsrc
open Spec

theorem oldLines_append (a b : List Edit) : oldLines (a ++ b) = oldLines a ++ oldLines b := by
  induction a with
  | nil => rfl
  | cons e a ih => cases e <;> simp [oldLines, ih]

theorem newStored_append (a b : List Edit) : newStored (a ++ b) = newStored a ++ newStored b := by
  induction a with
  | nil => rfl
  | cons e a ih => cases e <;> simp [newStored, ih]

theorem oldLines_keep (l : List Str) : oldLines (l.map Edit.keep) = l := by
  induction l with
  | nil => rfl
  | cons a l ih => simp [oldLines, ih]

theorem blameEdit_append (c : Str) (a b : List Edit) (x y : List Line) (h : x.length = (oldLines a).length) :
    blameEdit c (a ++ b) (x ++ y) = blameEdit c a x ++ blameEdit c b y := by
  induction a generalizing x with
  | nil =>
    have : x = [] := by simpa [oldLines] using h
    subst this
    simp [blameEdit]
  | cons e a ih =>
    cases e with
    | keep l =>
      cases x with
      | nil => simp [oldLines] at h
      | cons v x => simp only [List.cons_append, blameEdit]; rw [ih x (by simpa [oldLines] using h)]
    | del l =>
      cases x with
      | nil => simp [oldLines] at h
      | cons v x => simp only [List.cons_append, blameEdit]; rw [ih x (by simpa [oldLines] using h)]
    | add l => simp only [List.cons_append, blameEdit]; rw [ih x (by simpa [oldLines] using h)]

theorem blameEdit_keep (c : Str) (g : List Str) (x : List Line) (h : x.length = g.length) :
    blameEdit c (g.map Edit.keep) x = x := by
  induction g generalizing x with
  | nil => have : x = [] := by simpa using h
           subst this; rfl
  | cons l g ih =>
    cases x with
    | nil => simp at h
    | cons v x => simp only [List.map_cons, blameEdit]; rw [ih x (by simpa using h)]

theorem blameEdit_lines (c : Str) (es : List Edit) (x : List Line) (h : x.map (·.line) = oldLines es) :
    (blameEdit c es x).map (·.line) = newStored es := by
  induction es generalizing x with
  | nil => simp [blameEdit, newStored]
  | cons e es ih =>
    cases e with
    | keep l =>
      cases x with
      | nil => simp [oldLines] at h
      | cons v x =>
        simp only [oldLines, List.map_cons, List.cons.injEq] at h
        simp only [blameEdit, newStored, List.map_cons, ih x h.2, h.1]
    | del l =>
      cases x with
      | nil => simp [oldLines] at h
      | cons v x =>
        simp only [oldLines, List.map_cons, List.cons.injEq] at h
        simp only [blameEdit, newStored, ih x h.2]
    | add l =>
      simp only [oldLines] at h
      simp only [blameEdit, newStored, List.map_cons, ih x h]

theorem dropCR_text (b : BodyLine) : dropCR b.text = match b with
    | .edit (.add l) => 43 :: dropCR l
    | .edit (.keep l) => 32 :: dropCR l
    | .edit (.del l) => 45 :: dropCR l
    | .noNewline => b!"\\ No newline at end of file" := by
  cases b with
  | noNewline => decide
  | edit e => cases e <;> exact dropCR_cons_of_ne _ _ (Or.inl (by decide))

/-- Processing the lines of a hunk body. -/
theorem applyBody (file : List Line) (commit : Str) (body : List BodyLine) (pre olds post res : List Line)
    (hfile : file = pre ++ olds ++ post) (hlen : olds.length = (oldLines (edits body)).length) :
    (body.map (fun b => dropCR b.text)).foldlM (applyLine file commit) { res := res, idx := pre.length }
      = .ok { res := res ++ blameEdit commit (edits body) olds, idx := pre.length + olds.length } := by
  induction body generalizing pre olds res with
  | nil =>
    have : olds = [] := by simpa [edits, oldLines] using hlen
    subst this
    simp [edits, blameEdit]; rfl
  | cons b body ih =>
    simp only [List.map_cons, List.foldlM_cons, dropCR_text b]
    cases b with
    | noNewline =>
      have : applyLine file commit { res := res, idx := pre.length } b!"\\ No newline at end of file"
          = .ok { res := res, idx := pre.length } := by
        simp [applyLine, noNewlineMarker]
      simp only [this]
      exact ih pre olds res hfile hlen
    | edit e =>
      cases e with
      | keep l =>
        cases olds with
        | nil => simp [edits, oldLines] at hlen
        | cons v olds =>
          have hget : file[pre.length]? = some v := by simp [hfile]
          have : applyLine file commit { res := res, idx := pre.length } (32 :: dropCR l)
              = .ok { res := res ++ [v], idx := (pre ++ [v]).length } := by
            simp [applyLine, hget]
          simp only [this]
          have := ih (pre ++ [v]) olds (res ++ [v]) (by simp [hfile]) (by simpa [edits, oldLines] using hlen)
          simp only [edits, blameEdit]
          refine this.trans ?_
          simp [List.length_append]; omega
      | del l =>
        cases olds with
        | nil => simp [edits, oldLines] at hlen
        | cons v olds =>
          have : applyLine file commit { res := res, idx := pre.length } (45 :: dropCR l)
              = .ok { res := res, idx := (pre ++ [v]).length } := by
            simp [applyLine]
          simp only [this]
          have := ih (pre ++ [v]) olds res (by simp [hfile]) (by simpa [edits, oldLines] using hlen)
          simp only [edits, blameEdit]
          refine this.trans ?_
          simp [List.length_append]; omega
      | add l =>
        have : applyLine file commit { res := res, idx := pre.length } (43 :: dropCR l)
            = .ok { res := res ++ [{ line := dropCR l, commit := commit }], idx := pre.length } := by
          simp [applyLine]
        simp only [this]
        have := ih pre olds (res ++ [{ line := dropCR l, commit := commit }]) hfile (by simpa [edits, oldLines] using hlen)
        simp only [edits, blameEdit]
        refine this.trans ?_
        simp

theorem scan_body (body : List BodyLine) (h : ∀ b ∈ body, NoNL b.text ∧ b.text.length < 100000000) :
    scan incMaxLine (unlines (body.map BodyLine.text)) = (body.map (fun b => dropCR b.text), false) := by
  rw [scan_unlines]
  · simp [Function.comp_def]
  · intro l hl
    obtain ⟨b, hb, rfl⟩ := List.mem_map.1 hl
    exact (h b hb).1
  · intro l hl
    obtain ⟨b, hb, rfl⟩ := List.mem_map.1 hl
    exact (h b hb).2

theorem hunkStart_read (op : UInt8) (o n : Nat) (h : o = 0 ∨ 2 ≤ n) : hunkStart (readLocation op o n) = (o : Int) := by
  unfold hunkStart readLocation
  rcases h with rfl | h
  · by_cases h1 : n = 1
    · simp [h1]
    · by_cases h0 : n = 0
      · simp [h0]
      · simp [h1, h0]
  · have h1 : n ≠ 1 := by omega
    have h0 : n ≠ 0 := by omega
    simp only [h1, h0, if_false]
    split <;> omega

theorem copyRange_ok (file res : List Line) (pre mid post : List Line) (h : file = pre ++ mid ++ post) (to : Int)
    (hto : to = ((pre.length + mid.length : Nat) : Int)) :
    copyRange file res pre.length to = .ok (res ++ mid) := by
  unfold copyRange
  subst hto
  have hl : file.length = pre.length + mid.length + post.length := by rw [h]; simp; omega
  rw [if_neg (by omega)]
  congr 2
  subst h
  simp only [Int.toNat_natCast, List.append_assoc, List.drop_left', Nat.add_sub_cancel_left]
  simp

/-- Applying all hunks of a cut. -/
theorem applySegs (file : List Line) (commit : Str) (segs : List (List Str × List BodyLine)) (o n : Nat)
    (pre olds post res : List Line) (hfile : file = pre ++ olds ++ post) (hpre : pre.length = o)
    (hlen : olds.length = (oldLines (segScript segs)).length) (hok : segsOk o segs)
    (hl : ∀ s ∈ segs, ∀ b ∈ s.2, NoNL b.text ∧ b.text.length < 100000000) :
    (segHunks o n segs).foldlM (applyHunk file commit) { res := res, idx := o }
      = .ok { res := res ++ blameEdit commit (segScript segs) olds, idx := o + olds.length } := by
  induction segs generalizing o n pre olds res with
  | nil =>
    have : olds = [] := by simpa [segScript, oldLines] using hlen
    subst this
    simp [segHunks, segScript, blameEdit]; rfl
  | cons s segs ih =>
    obtain ⟨gap, body⟩ := s
    simp only [segHunks, List.foldlM_cons]
    simp only [segsOk] at hok
    obtain ⟨hok1, _, hok3⟩ := hok
    simp only [segScript, oldLines_append, oldLines_keep, List.length_append] at hlen
    -- split the old lines: gap, body, rest
    obtain ⟨g, r1, rfl, hg⟩ : ∃ g r1, olds = g ++ r1 ∧ g.length = gap.length :=
      ⟨olds.take gap.length, olds.drop gap.length, (List.take_append_drop _ _).symm, by simp; omega⟩
    obtain ⟨m, r2, rfl, hm⟩ : ∃ m r2, r1 = m ++ r2 ∧ m.length = (oldLines (edits body)).length :=
      ⟨r1.take (oldLines (edits body)).length, r1.drop (oldLines (edits body)).length,
        (List.take_append_drop _ _).symm, by simp at hlen ⊢; omega⟩
    have hr2 : r2.length = (oldLines (segScript segs)).length := by simp at hlen; omega
    have hhunk : applyHunk file commit { res := res, idx := o }
        { locations := [readLocation 45 (o + gap.length) (oldLines (edits body)).length,
            readLocation 43 (n + gap.length) (newLines (edits body)).length],
          data := unlines (body.map BodyLine.text) }
        = .ok { res := res ++ g ++ blameEdit commit (edits body) m,
                idx := o + gap.length + (oldLines (edits body)).length } := by
      simp only [applyHunk]
      rw [hunkStart_read 45 _ _ hok1]
      subst hpre
      rw [copyRange_ok file res pre g (m ++ r2 ++ post) (by simp [hfile]) _ (by rw [hg])]
      simp only [bind, Except.bind]
      rw [scan_body body (hl (gap, body) (by simp))]
      have hb := applyBody file commit body (pre ++ g) m (r2 ++ post) (res ++ g) (by simp [hfile]) hm
      simp only [List.length_append] at hb
      rw [hg] at hb
      simp only [Int.toNat_natCast, hb, hm]
      simp
    simp only [hhunk]
    have := ih (o + gap.length + (oldLines (edits body)).length) (n + gap.length + (newLines (edits body)).length)
      (pre ++ g ++ m) r2 (res ++ g ++ blameEdit commit (edits body) m) (by simp [hfile])
      (by simp only [List.length_append, hpre, hg, hm]) hr2 hok3 (fun s hs => hl s (by simp [hs]))
    refine this.trans ?_
    congr 2
    · simp only [segScript, List.append_assoc]
      rw [blameEdit_append commit (gap.map Edit.keep) _ g _ (by rw [oldLines_keep]; exact hg),
        blameEdit_keep commit gap g hg, blameEdit_append commit (edits body) _ m r2 hm]
    · simp only [List.length_append, hg, hm]; omega

/-! ### Sorting hunks -/

/-- Offset used for sorting. -/
def hunkOffset (h : Hunk) : Option Int := h.locations.head?.map (·.offset)

theorem hunkLe_antisymm {l : List Hunk} (hloc : ∀ h ∈ l, h.locations ≠ [])
    (hinj : ∀ a ∈ l, ∀ b ∈ l, hunkOffset a = hunkOffset b → a = b) :
    ∀ a ∈ l, ∀ b ∈ l, hunkLe a b = true → hunkLe b a = true → a = b := by
  intro a ha b hb h1 h2
  apply hinj a ha b hb
  have hna := hloc a ha
  have hnb := hloc b hb
  unfold hunkLe at h1 h2
  unfold hunkOffset
  cases hla : a.locations with
  | nil => exact absurd hla hna
  | cons x xs =>
    cases hlb : b.locations with
    | nil => exact absurd hlb hnb
    | cons y ys =>
      rw [hla, hlb] at h1 h2
      simp only [decide_eq_true_eq] at h1 h2
      have : x.offset = y.offset := by omega
      simp [this]

/-- A sort oracle: what `sort.Slice` is assumed to do. -/
def SortsHunks (srt : List Hunk → List Hunk) : Prop := ∀ l, (∀ h ∈ l, h.locations ≠ []) → IsSort hunkLe l (srt l)

theorem srt_unique {srt₁ srt₂ : List Hunk → List Hunk} (h₁ : SortsHunks srt₁) (h₂ : SortsHunks srt₂)
    {l m : List Hunk} (hp : l.Perm m) (hloc : ∀ h ∈ l, h.locations ≠ [])
    (hinj : ∀ a ∈ l, ∀ b ∈ l, hunkOffset a = hunkOffset b → a = b) : srt₁ l = srt₂ m := by
  have hlocm : ∀ h ∈ m, h.locations ≠ [] := fun h hh => hloc h (hp.mem_iff.2 hh)
  obtain ⟨p1, s1⟩ := h₁ l hloc
  obtain ⟨p2, s2⟩ := h₂ m hlocm
  apply sorted_perm_unique (le := hunkLe) _ (p1.trans (hp.trans p2.symm)) s1 s2
  intro a ha b hb
  exact hunkLe_antisymm hloc hinj a (p1.mem_iff.1 ha) b (p1.mem_iff.1 hb)

theorem segHunks_loc (o n : Nat) (segs : List (List Str × List BodyLine)) :
    ∀ h ∈ segHunks o n segs, h.locations ≠ [] := by
  induction segs generalizing o n with
  | nil => simp [segHunks]
  | cons s segs ih =>
    intro h hh
    simp only [segHunks, List.mem_cons] at hh
    rcases hh with rfl | hh
    · simp
    · exact ih _ _ h hh

theorem readLocation_offset (op : UInt8) (o n : Nat) (h : o = 0 ∨ 2 ≤ n) :
    (readLocation op o n).offset ≤ (o : Int) + 1 ∧ (o ≠ 0 → (readLocation op o n).offset = (o : Int) + 1) := by
  unfold readLocation
  rcases h with rfl | h
  · by_cases h1 : n = 1
    · simp [h1]
    · by_cases h0 : n = 0
      · simp [h0]
      · simp [h1, h0]
  · rw [if_neg (by omega), if_neg (by omega)]
    simp

/-- Offsets of rendered hunks strictly increase. -/
theorem segHunks_increasing (o n : Nat) (segs : List (List Str × List BodyLine)) (hok : segsOk o segs) :
    (segHunks o n segs).Pairwise (fun a b => ∃ x y, hunkOffset a = some x ∧ hunkOffset b = some y ∧ x < y) ∧
    (∀ s, segs.head? = some s → s.1 ≠ [] →
      ∀ h ∈ segHunks o n segs, ∃ x, hunkOffset h = some x ∧ (o : Int) + 1 < x) := by
  induction segs generalizing o n with
  | nil => simp [segHunks]
  | cons s segs ih =>
    obtain ⟨gap, body⟩ := s
    simp only [segsOk] at hok
    obtain ⟨h1, h2, h3⟩ := hok
    simp only [segHunks]
    obtain ⟨i1, i2⟩ := ih (o + gap.length + (oldLines (edits body)).length)
      (n + gap.length + (newLines (edits body)).length) h3
    have hrest : ∀ h ∈ segHunks (o + gap.length + (oldLines (edits body)).length)
        (n + gap.length + (newLines (edits body)).length) segs,
        ∃ x, hunkOffset h = some x ∧ ((o + gap.length + (oldLines (edits body)).length : Nat) : Int) + 1 < x := by
      cases hs : segs with
      | nil => simp [segHunks]
      | cons s' r =>
        rw [hs] at i2
        exact i2 s' rfl (h2 s' (by simp [hs]))
    have hoff := readLocation_offset 45 (o + gap.length) (oldLines (edits body)).length h1
    refine ⟨List.pairwise_cons.2 ⟨?_, i1⟩, ?_⟩
    · intro h hh
      obtain ⟨x, hx, hlt⟩ := hrest h hh
      refine ⟨_, x, rfl, hx, ?_⟩
      have := hoff.1
      simp only at *
      omega
    · intro s hs hne h hh
      simp only [List.head?_cons, Option.some.injEq] at hs
      subst hs
      simp only at hne
      have hgl : 0 < gap.length := List.length_pos_iff.2 hne
      simp only [List.mem_cons] at hh
      rcases hh with rfl | hh
      · refine ⟨_, rfl, ?_⟩
        have := hoff.2 (by omega)
        simp only
        omega
      · obtain ⟨x, hx, hlt⟩ := hrest h hh
        exact ⟨x, hx, by omega⟩

theorem segHunks_sorted (segs : List (List Str × List BodyLine)) (hok : segsOk 0 segs) :
    Sorted hunkLe (segHunks 0 0 segs) ∧
    ∀ a ∈ segHunks 0 0 segs, ∀ b ∈ segHunks 0 0 segs, hunkOffset a = hunkOffset b → a = b := by
  have h := (segHunks_increasing 0 0 segs hok).1
  constructor
  · apply h.imp
    rintro a b ⟨x, y, hx, hy, hlt⟩
    unfold hunkOffset at hx hy
    unfold hunkLe
    cases ha : a.locations with
    | nil => rfl
    | cons u us =>
      cases hb : b.locations with
      | nil => rfl
      | cons v vs =>
        simp only [ha, hb, List.head?_cons, Option.map_some, Option.some.injEq] at hx hy
        simp only [decide_eq_true_eq]
        omega
  · have aux : ∀ l : List Hunk,
        l.Pairwise (fun a b => ∃ x y, hunkOffset a = some x ∧ hunkOffset b = some y ∧ x < y) →
        ∀ a ∈ l, ∀ b ∈ l, hunkOffset a = hunkOffset b → a = b := by
      intro l
      induction l with
      | nil => simp
      | cons c l ih =>
        intro hp a ha b hb hab
        obtain ⟨hc, hl⟩ := List.pairwise_cons.1 hp
        rcases List.mem_cons.1 ha with rfl | ha'
        · rcases List.mem_cons.1 hb with rfl | hb
          · rfl
          · obtain ⟨x, y, hx, hy, hlt⟩ := hc b hb
            rw [hx, hy] at hab
            simp only [Option.some.injEq] at hab
            omega
        · rcases List.mem_cons.1 hb with rfl | hb
          · obtain ⟨x, y, hx, hy, hlt⟩ := hc a (by assumption)
            rw [hx, hy] at hab
            simp only [Option.some.injEq] at hab
            omega
          · exact ih hl a ha' b hb hab
    exact aux _ h

/-- A concrete sort oracle: insertion sort. -/
theorem isort_sortsHunks : SortsHunks (isort hunkLe) := by
  intro l hloc
  refine ⟨isort_perm _ _, ?_⟩
  -- compare with a total order that agrees on hunks having locations
  let le' : Hunk → Hunk → Bool := fun a b => decide ((hunkOffset a).getD 0 ≤ (hunkOffset b).getD 0)
  have heq : ∀ a b : Hunk, a.locations ≠ [] → b.locations ≠ [] → hunkLe a b = le' a b := by
    intro a b ha hb
    cases hla : a.locations with
    | nil => exact absurd hla ha
    | cons x xs =>
      cases hlb : b.locations with
      | nil => exact absurd hlb hb
      | cons y ys => simp [hunkLe, le', hunkOffset, hla, hlb]
  have hins : ∀ (a : Hunk) (l : List Hunk), a.locations ≠ [] → (∀ h ∈ l, h.locations ≠ []) →
      insertSorted hunkLe a l = insertSorted le' a l := by
    intro a l ha
    induction l with
    | nil => intro _; rfl
    | cons b l ih =>
      intro hl
      simp only [insertSorted, heq a b ha (hl b (by simp))]
      rw [ih (fun h hh => hl h (by simp [hh]))]
  have hsort : ∀ l : List Hunk, (∀ h ∈ l, h.locations ≠ []) → isort hunkLe l = isort le' l := by
    intro l
    induction l with
    | nil => intro _; rfl
    | cons a l ih =>
      intro hl
      simp only [isort]
      rw [ih (fun h hh => hl h (by simp [hh]))]
      exact hins a _ (hl a (by simp)) (fun h hh => hl h (List.mem_cons_of_mem _ ((isort_perm le' l).mem_iff.1 hh)))
  rw [hsort l hloc]
  have hs := isort_sorted (le := le') (fun a b => by simp only [le', decide_eq_true_eq]; omega)
    (fun a b c => by simp only [le', decide_eq_true_eq]; omega) l
  refine List.Pairwise.imp_of_mem ?_ hs
  intro a b ha hb h
  rw [heq a b (hloc a ((isort_perm _ l).mem_iff.1 ha)) (hloc b ((isort_perm _ l).mem_iff.1 hb))]
  exact h

/-! ### When `Apply` succeeds -/

theorem applyLine_ok {file : List Line} {commit : Str} {s s' : ApplySt} {b : Str}
    (h : applyLine file commit s b = .ok s') :
    PatchLine b ∧ s'.idx = s.idx + if usesOld b then 1 else 0 := by
  unfold applyLine at h
  split at h
  · cases h
  · rename_i op data
    split at h
    · rename_i hop
      split at h
      · cases h
      · cases h
        rcases hop with rfl | rfl
        · exact ⟨Or.inl ⟨data, rfl⟩, by simp [usesOld]⟩
        · exact ⟨Or.inr (Or.inl ⟨data, rfl⟩), by simp [usesOld]⟩
    · split at h
      · rename_i hop
        cases h
        subst hop
        exact ⟨Or.inr (Or.inr (Or.inl ⟨data, rfl⟩)), by simp [usesOld]⟩
      · split at h
        · rename_i hop
          cases h
          subst hop
          exact ⟨Or.inr (Or.inr (Or.inr (Or.inl ⟨data, rfl⟩))), by simp [usesOld]⟩
        · split at h
          · rename_i hop
            split at h
            · rename_i hb
              cases h
              subst hop
              exact ⟨Or.inr (Or.inr (Or.inr (Or.inr hb))), by simp [usesOld]⟩
            · cases h
          · cases h

theorem applyLine_run {file : List Line} {commit : Str} {s : ApplySt} {b : Str} (hb : PatchLine b)
    (hidx : s.idx + (if usesOld b then 1 else 0) ≤ file.length) : ∃ s', applyLine file commit s b = .ok s' := by
  rcases hb with ⟨d, rfl⟩ | ⟨d, rfl⟩ | ⟨d, rfl⟩ | ⟨d, rfl⟩ | rfl
  · have : s.idx < file.length := by simp [usesOld] at hidx; omega
    simp [applyLine, List.getElem?_eq_getElem this]
  · have : s.idx < file.length := by simp [usesOld] at hidx; omega
    simp [applyLine, List.getElem?_eq_getElem this]
  · exact ⟨_, rfl⟩
  · exact ⟨_, rfl⟩
  · exact ⟨s, rfl⟩

theorem applyLine_panic {file : List Line} {commit : Str} {s : ApplySt} {b : Str} {e : Fault}
    (h : applyLine file commit s b = .error e) : ∃ m, e = .panic m := by
  unfold applyLine at h
  repeat' split at h
  all_goals (cases h; try exact ⟨_, rfl⟩)

theorem applyLines_iff (file : List Line) (commit : Str) (bs : List Str) (s : ApplySt) :
    (∀ s', bs.foldlM (applyLine file commit) s = .ok s' →
      (∀ b ∈ bs, PatchLine b) ∧ s'.idx = s.idx + bs.countP usesOld) ∧
    ((∀ b ∈ bs, PatchLine b) → s.idx + bs.countP usesOld ≤ file.length →
      ∃ s', bs.foldlM (applyLine file commit) s = .ok s') ∧
    (∀ e, bs.foldlM (applyLine file commit) s = .error e → ∃ m, e = .panic m) := by
  induction bs generalizing s with
  | nil => exact ⟨fun s' h => (by cases h; simp), fun _ _ => ⟨s, rfl⟩, fun e h => (by cases h)⟩
  | cons b bs ih =>
    simp only [List.foldlM_cons, List.countP_cons, List.mem_cons, forall_eq_or_imp]
    cases hl : applyLine file commit s b with
    | error e =>
      refine ⟨fun s' h => (by cases h), fun hb hle => ?_, fun e' h => ?_⟩
      · obtain ⟨s', hs'⟩ := applyLine_run (commit := commit) (s := s) (file := file) hb.1 (by omega)
        rw [hl] at hs'; cases hs'
      · cases h; exact applyLine_panic hl
    | ok s1 =>
      obtain ⟨hp, hi⟩ := applyLine_ok hl
      obtain ⟨i1, i2, i3⟩ := ih s1
      refine ⟨fun s' h => ?_, fun hb hle => ?_, fun e h => i3 e h⟩
      · obtain ⟨a1, a2⟩ := i1 s' h
        exact ⟨⟨hp, a1⟩, by omega⟩
      · exact i2 hb.2 (by omega)

theorem hunkStart_eq {h : Hunk} {l : HunkLocation} {ls : List HunkLocation} (hl : h.locations = l :: ls) :
    linesBefore h = hunkStart l := by
  unfold linesBefore hunkStart
  rw [hl]
  simp only
  split <;> split <;> omega

theorem Fits_le {n : Nat} {i : Int} {hs : List Hunk} (h : Fits n i hs) : i ≤ n := by
  induction hs generalizing i with
  | nil => exact h
  | cons x hs ih =>
    have := ih h.2
    have h1 := h.1
    omega

theorem applyHunk_iff (file : List Line) (commit : Str) (h : Hunk) (hloc : h.locations ≠ []) (s : ApplySt) :
    (∀ s', applyHunk file commit s h = .ok s' →
      ((∀ b ∈ hunkLines h, PatchLine b) ∧ (scan 100000000 h.data).2 = false) ∧ (s.idx : Int) ≤ linesBefore h ∧
      (s'.idx : Int) = linesBefore h + ((hunkLines h).countP usesOld : Nat)) ∧
    ((∀ b ∈ hunkLines h, PatchLine b) → (scan 100000000 h.data).2 = false → (s.idx : Int) ≤ linesBefore h →
      linesBefore h + ((hunkLines h).countP usesOld : Nat) ≤ (file.length : Int) →
      ∃ s', applyHunk file commit s h = .ok s') ∧
    (∀ e, applyHunk file commit s h = .error e → ∃ m, e = .panic m) := by
  obtain ⟨l, ls, hl⟩ : ∃ l ls, h.locations = l :: ls := by
    cases hh : h.locations with
    | nil => exact absurd hh hloc
    | cons l ls => exact ⟨l, ls, rfl⟩
  have hj := hunkStart_eq hl
  have hscan : scan incMaxLine h.data = (hunkLines h, (scan 100000000 h.data).2) := rfl
  unfold applyHunk
  rw [hl]
  simp only [hscan, ← hj]
  unfold copyRange
  by_cases hbad : linesBefore h < (s.idx : Int) ∨ (file.length : Int) < linesBefore h
  · rw [if_pos hbad]
    refine ⟨fun s' h => (by cases h), fun _ _ h1 h2 => ?_, fun e h => (by cases h; exact ⟨_, rfl⟩)⟩
    omega
  · rw [if_neg hbad]
    simp only [bind, Except.bind]
    obtain ⟨i1, i2, i3⟩ := applyLines_iff file commit (hunkLines h)
      { res := s.res ++ (file.drop s.idx).take ((linesBefore h).toNat - s.idx), idx := (linesBefore h).toNat }
    cases hf : (hunkLines h).foldlM (applyLine file commit)
      { res := s.res ++ (file.drop s.idx).take ((linesBefore h).toNat - s.idx), idx := (linesBefore h).toNat } with
    | error e =>
      refine ⟨fun s' h => (by cases h), fun h1 h2 h3 h4 => ?_, fun e' h => (by cases h; exact i3 e hf)⟩
      obtain ⟨s', hs'⟩ := i2 h1 (by simp only; omega)
      rw [hf] at hs'; cases hs'
    | ok s1 =>
      obtain ⟨a1, a2⟩ := i1 s1 hf
      simp only at a2
      cases ht : (scan 100000000 h.data).2 with
      | true => simp
      | false =>
        simp only [Bool.false_eq_true, if_false, and_true, forall_const]
        refine ⟨fun s' h => ?_, fun _ _ _ => ⟨_, rfl⟩, fun e h => (by cases h)⟩
        cases h
        exact ⟨a1, by omega, by omega⟩

theorem applyHunks_iff (file : List Line) (commit : Str) (hs : List Hunk) (s : ApplySt)
    (hloc : ∀ h ∈ hs, h.locations ≠ []) :
    (∀ s', hs.foldlM (applyHunk file commit) s = .ok s' →
      (∀ h ∈ hs, (∀ b ∈ hunkLines h, PatchLine b) ∧ (scan 100000000 h.data).2 = false) ∧
      ∀ n : Nat, Fits n s.idx hs ↔ s'.idx ≤ n) ∧
    ((∀ h ∈ hs, (∀ b ∈ hunkLines h, PatchLine b) ∧ (scan 100000000 h.data).2 = false) → Fits file.length s.idx hs →
      ∃ s', hs.foldlM (applyHunk file commit) s = .ok s' ∧ True) ∧
    (∀ e, hs.foldlM (applyHunk file commit) s = .error e → ∃ m, e = .panic m) := by
  induction hs generalizing s with
  | nil =>
    refine ⟨fun s' h => ?_, fun _ _ => ⟨s, rfl, trivial⟩, fun e h => (by cases h)⟩
    cases h
    exact ⟨by simp, fun n => by simp [Fits]⟩
  | cons h hs ih =>
    simp only [List.foldlM_cons, List.mem_cons, forall_eq_or_imp, Fits]
    obtain ⟨j1, j2, j3⟩ := applyHunk_iff file commit h (hloc h (by simp)) s
    cases hr : applyHunk file commit s h with
    | error e =>
      refine ⟨fun s' h => (by cases h), fun hb hfit => ?_, fun e' h => (by cases h; exact j3 e hr)⟩
      obtain ⟨s', hs'⟩ := j2 hb.1.1 hb.1.2 hfit.1 (Fits_le hfit.2)
      rw [hr] at hs'; cases hs'
    | ok s1 =>
      obtain ⟨a1, a2, a3⟩ := j1 s1 hr
      obtain ⟨i1, i2, i3⟩ := ih s1 (fun h hh => hloc h (by simp [hh]))
      rw [← a3]
      refine ⟨fun s' h => ?_, fun hb hfit => i2 hb.2 hfit.2, fun e h => i3 e h⟩
      obtain ⟨b1, b2⟩ := i1 s' h
      exact ⟨⟨a1, b1⟩, fun n => ⟨fun hf => (b2 n).1 hf.2, fun hf => ⟨a2, (b2 n).2 hf⟩⟩⟩

/-! ### Merges -/

theorem attributions_length (c : Str) (es : List Edit) (x : List Line) (h : x.length = (oldLines es).length) :
    (attributions es x).length = (blameEdit c es x).length := by
  induction es generalizing x with
  | nil => simp [attributions, blameEdit]
  | cons e es ih =>
    cases e with
    | keep l => cases x with
      | nil => simp [oldLines] at h
      | cons v x => simp [attributions, blameEdit, ih x (by simpa [oldLines] using h)]
    | del l => cases x with
      | nil => simp [oldLines] at h
      | cons v x => simp [attributions, blameEdit, ih x (by simpa [oldLines] using h)]
    | add l => simp [attributions, blameEdit, ih x (by simpa [oldLines] using h)]

/-- How the commits in a patched blame determine the attributions. -/
theorem blameEdit_commits (c : Str) (es : List Edit) (x : List Line) (h : x.length = (oldLines es).length)
    (hc : ∀ l ∈ x, l.commit ≠ c) :
    attributions es x = (blameEdit c es x).map (fun l => if l.commit ≠ c then some l.commit else none) := by
  induction es generalizing x with
  | nil => simp [attributions, blameEdit]
  | cons e es ih =>
    cases e with
    | keep l => cases x with
      | nil => simp [oldLines] at h
      | cons v x =>
        simp only [attributions, blameEdit, List.map_cons]
        rw [ih x (by simpa [oldLines] using h) (fun l hl => hc l (by simp [hl])), if_pos (hc v (by simp))]
    | del l => cases x with
      | nil => simp [oldLines] at h
      | cons v x =>
        simp only [attributions, blameEdit]
        rw [ih x (by simpa [oldLines] using h) (fun l hl => hc l (by simp [hl]))]
    | add l =>
      simp only [attributions, blameEdit, List.map_cons]
      rw [ih x (by simpa [oldLines] using h) hc]
      simp

theorem linesAt_ok (cands : List Blame) (n i : Nat) (h : ∀ c ∈ cands, c.lines.length = n) (hi : i < n) :
    ∃ ls, linesAt cands i = .ok ls ∧ ls.map some = cands.map (fun c => c.lines[i]?) := by
  induction cands with
  | nil => exact ⟨[], rfl, rfl⟩
  | cons c cands ih =>
    obtain ⟨ls, h1, h2⟩ := ih (fun c hc => h c (by simp [hc]))
    have hc : i < c.lines.length := by rw [h c (by simp)]; exact hi
    refine ⟨c.lines[i] :: ls, ?_, by simp [h2, List.getElem?_eq_getElem hc]⟩
    unfold linesAt at h1 ⊢
    rw [List.mapM_cons, h1, List.getElem?_eq_getElem hc]
    rfl

theorem mergePick_spec (commit : Str) (own : Line) (ls : List Line) :
    mergePick commit own ls = match firstSome (ls.map (fun l => if l.commit ≠ commit then some l.commit else none)) with
      | some c => { own with commit := c }
      | none => own := by
  induction ls with
  | nil => rfl
  | cons l ls ih =>
    simp only [mergePick, List.map_cons]
    by_cases h : l.commit ≠ commit
    · simp only [if_pos h, firstSome]
    · simp only [if_neg h, firstSome]; exact ih

/-- The line of the merge at index `k`, whose first candidate is `own`. -/
def pickAt (commit : Str) (cands : List Blame) (own : Line) (k : Nat) : Line :=
  match firstSome (cands.map (fun c => (c.lines[k]?).bind (fun l => if l.commit ≠ commit then some l.commit else none))) with
  | some c => { own with commit := c }
  | none => own

theorem mergeLines_spec (commit : Str) (cands : List Blame) (n : Nat) (h : ∀ c ∈ cands, c.lines.length = n)
    (own : List Line) (i : Nat) (hi : i + own.length = n) :
    mergeLines commit cands i own = .ok ((own.zipIdx i).map (fun p => pickAt commit cands p.1 p.2)) := by
  induction own generalizing i with
  | nil => rfl
  | cons o own ih =>
    simp only [List.length_cons] at hi
    obtain ⟨ls, h1, h2⟩ := linesAt_ok cands n i h (by omega)
    simp only [mergeLines, h1, ih (i + 1) (by omega)]
    simp only [List.zipIdx_cons, List.map_cons, bind, Except.bind]
    congr 2
    rw [mergePick_spec]
    unfold pickAt
    have : cands.map (fun c => (c.lines[i]?).bind (fun l => if l.commit ≠ commit then some l.commit else none))
        = ls.map (fun l => if l.commit ≠ commit then some l.commit else none) := by
      have := congrArg (List.map (fun o => Option.bind o (fun l : Line => if l.commit ≠ commit then some l.commit else none))) h2
      simpa [List.map_map, Function.comp_def] using this.symm
    rw [this]

theorem firstSome_none {l : List (Option Str)} (h : firstSome l = none) : ∀ x ∈ l, x = none := by
  induction l with
  | nil => simp
  | cons o l ih =>
    cases o with
    | none => intro x hx; rcases List.mem_cons.1 hx with rfl | hx; rfl; exact ih h x hx
    | some c => cases h

theorem mergeCands_ok {srt : List Hunk → List Hunk} {commit : Str} {ps : List Blame} {ds : List Diff} {cs : List Blame}
    (h : mergeCands srt commit ps ds = .ok cs) :
    cs.length = ps.length ∧ ps.length ≤ ds.length ∧
    ∀ (i : Nat) p d, ps[i]? = some p → ds[i]? = some d → ∃ c, cs[i]? = some c ∧ apply srt p d commit = .ok c := by
  induction ps generalizing ds cs with
  | nil => cases h; simp
  | cons p ps ih =>
    cases ds with
    | nil => cases h
    | cons d ds =>
      simp only [mergeCands] at h
      cases ha : apply srt p d commit with
      | error e => rw [ha] at h; cases h
      | ok c =>
        rw [ha] at h
        simp only [bind, Except.bind] at h
        cases hm : mergeCands srt commit ps ds with
        | error e => rw [hm] at h; cases h
        | ok cs' =>
          rw [hm] at h
          cases h
          obtain ⟨h1, h2, h3⟩ := ih hm
          refine ⟨by simp [h1], by simp; omega, ?_⟩
          intro i q e hq he
          cases i with
          | zero =>
            simp only [List.getElem?_cons_zero, Option.some.injEq] at hq he
            subst hq he
            exact ⟨c, rfl, ha⟩
          | succ i => exact h3 i q e (by simpa using hq) (by simpa using he)

end Ripsrc
