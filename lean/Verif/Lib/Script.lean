import Verif.Lib.ApplyScript
import Verif.Lib.LogPatch
import Verif.Spec.History
/-!
# Changes as printed in the log, applied to stored lines
-/
namespace Ripsrc
open Spec

/-- The second script is the first one after shown lines lost at most `k` trailing carriage returns. -/
inductive Near (k : Nat) : List Edit → List Edit → Prop
  | nil : Near k [] []
  | keep {a b es es'} : Near k es es' → Near k (.keep a :: es) (.keep b :: es')
  | del {a b es es'} : Near k es es' → Near k (.del a :: es) (.del b :: es')
  | add {a b es es'} : (∃ m ≤ k, a = b ++ List.replicate m 13) → Near k es es' → Near k (.add a :: es) (.add b :: es')

theorem dropCR_cases (l : Str) : l = dropCR l ∨ l = dropCR l ++ [13] := by
  unfold dropCR
  split
  · rename_i h
    right
    rw [List.getLast?_eq_some_iff] at h
    obtain ⟨r, rfl⟩ := h
    simp
  · left; rfl

theorem Near.refl (es : List Edit) : Near 0 es es := by
  induction es with
  | nil => exact .nil
  | cons e es ih =>
    cases e with
    | keep l => exact .keep ih
    | del l => exact .del ih
    | add l => exact .add ⟨0, Nat.le_refl _, by simp⟩ ih

theorem Near.mono {k m : Nat} (h : k ≤ m) {a b : List Edit} (hn : Near k a b) : Near m a b := by
  induction hn with
  | nil => exact .nil
  | keep _ ih => exact .keep ih
  | del _ ih => exact .del ih
  | add hx _ ih => obtain ⟨x, h1, h2⟩ := hx; exact .add ⟨x, by omega, h2⟩ ih

theorem Near.append {k : Nat} {a b c d : List Edit} (h1 : Near k a b) (h2 : Near k c d) : Near k (a ++ c) (b ++ d) := by
  induction h1 with
  | nil => exact h2
  | keep _ ih => exact .keep ih
  | del _ ih => exact .del ih
  | add hx _ ih => exact .add hx ih

theorem Near.trans {k m : Nat} {a b c : List Edit} (h1 : Near k a b) (h2 : Near m b c) : Near (k + m) a c := by
  induction h1 generalizing c with
  | nil => cases h2; exact .nil
  | keep _ ih => cases h2 with | keep h => exact .keep (ih h)
  | del _ ih => cases h2 with | del h => exact .del (ih h)
  | add hx _ ih =>
    cases h2 with
    | add hy h =>
      obtain ⟨x, x1, x2⟩ := hx
      obtain ⟨y, y1, y2⟩ := hy
      refine .add ⟨y + x, by omega, ?_⟩ (ih h)
      rw [x2, y2, List.append_assoc, List.replicate_append_replicate]

theorem near_edits_norm (body : List BodyLine) : Near 1 (edits body) (edits (body.map BodyLine.norm)) := by
  induction body with
  | nil => exact .nil
  | cons b body ih =>
    cases b with
    | noNewline => exact ih
    | edit e =>
      cases e with
      | keep l => exact .keep ih
      | del l => exact .del ih
      | add l =>
        refine .add ?_ ih
        rcases dropCR_cases l with h | h
        · exact ⟨0, by omega, by simpa using h⟩
        · exact ⟨1, by omega, by simpa using h⟩

theorem near_seg_norm (segs : List (List Str × List BodyLine)) :
    Near 1 (segScript segs) (segScript (segs.map (fun s => (s.1, s.2.map BodyLine.norm)))) := by
  induction segs with
  | nil => exact .nil
  | cons s segs ih =>
    obtain ⟨gap, body⟩ := s
    simp only [List.map_cons, segScript]
    exact ((((Near.refl _).mono (by omega)).append (near_edits_norm body)).append ih)

theorem near_norm (cut : Cut) : Near 1 cut.script cut.norm.script := by
  unfold Cut.script
  exact (near_seg_norm cut.segs).append ((Near.refl _).mono (by omega))

theorem near_norm2 (cut : Cut) : Near 2 cut.script cut.norm.norm.script := (near_norm cut).trans (near_norm cut.norm)

theorem Near.oldLen {k : Nat} {a b : List Edit} (h : Near k a b) : (oldLines b).length = (oldLines a).length := by
  induction h with
  | nil => rfl
  | keep _ ih => simp [oldLines, ih]
  | del _ ih => simp [oldLines, ih]
  | add _ _ ih => simpa [oldLines] using ih

theorem Near.newLen {k : Nat} {a b : List Edit} (h : Near k a b) : (newLines b).length = (newLines a).length := by
  induction h with
  | nil => rfl
  | keep _ ih => simp [newLines, ih]
  | del _ ih => simpa [newLines] using ih
  | add _ _ ih => simp [newLines, ih]

theorem sources_length (es : List Edit) (i : Nat) : (sources es i).length = (newLines es).length := by
  induction es generalizing i with
  | nil => rfl
  | cons e es ih => cases e <;> simp [sources, newLines, ih]

/-- Lines of the result, by their source. -/
theorem near_source {k : Nat} {a b : List Edit} (h : Near k a b) (c : Str) :
    ∀ (ls : List Line) (i : Nat), ls.length = (oldLines a).length → ∀ (j : Nat),
      (∀ m, (sources a i)[j]? = some (some m) → i ≤ m ∧ m - i < ls.length ∧
        (blameEdit c b ls)[j]? = ls[m - i]? ∧ (newLines a)[j]? = (oldLines a)[m - i]? ∧
        (attributions b ls)[j]? = (ls[m - i]?).map (fun l => some l.commit)) ∧
      ((sources a i)[j]? = some none → ∃ t x, (newLines a)[j]? = some x ∧ (∃ m ≤ k, x = t ++ List.replicate m 13) ∧
        (blameEdit c b ls)[j]? = some ⟨dropCR t, c⟩ ∧ (attributions b ls)[j]? = some none) := by
  induction h with
  | nil => intro ls i _ j; simp [sources]
  | keep h ih =>
    intro ls i hl j
    cases ls with
    | nil => simp [oldLines] at hl
    | cons l ls =>
      simp only [oldLines, List.length_cons, Nat.add_right_cancel_iff] at hl
      cases j with
      | zero =>
        simp only [sources, blameEdit, newLines, oldLines, attributions, List.getElem?_cons_zero]
        refine ⟨?_, by simp⟩
        intro m hm
        simp only [Option.some.injEq] at hm
        subst hm
        simp
      | succ j =>
        obtain ⟨h1, h2⟩ := ih ls (i + 1) hl j
        simp only [sources, blameEdit, newLines, oldLines, attributions, List.getElem?_cons_succ]
        refine ⟨?_, h2⟩
        intro m hm
        obtain ⟨g1, g2, g3, g4, g5⟩ := h1 m hm
        have e : m - i = (m - (i + 1)) + 1 := by omega
        rw [e]
        exact ⟨by omega, by simpa using g2, by simpa using g3, by simpa using g4, by simpa using g5⟩
  | del h ih =>
    intro ls i hl j
    cases ls with
    | nil => simp [oldLines] at hl
    | cons l ls =>
      simp only [oldLines, List.length_cons, Nat.add_right_cancel_iff] at hl
      obtain ⟨h1, h2⟩ := ih ls (i + 1) hl j
      simp only [sources, blameEdit, newLines, oldLines, attributions]
      refine ⟨?_, h2⟩
      intro m hm
      obtain ⟨g1, g2, g3, g4, g5⟩ := h1 m hm
      have e : m - i = (m - (i + 1)) + 1 := by omega
      rw [e]
      exact ⟨by omega, by simpa using g2, by simpa using g3, by simpa using g4, by simpa using g5⟩
  | @add x y es es' hx h ih =>
    intro ls i hl j
    cases j with
    | zero =>
      simp only [sources, blameEdit, newLines, oldLines, attributions, List.getElem?_cons_zero]
      refine ⟨fun m hm => by simp at hm, fun _ => ⟨y, x, rfl, hx, rfl, trivial⟩⟩
    | succ j =>
      obtain ⟨h1, h2⟩ := ih ls i (by simpa [oldLines] using hl) j
      simp only [sources, blameEdit, newLines, oldLines, attributions, List.getElem?_cons_succ]
      exact ⟨h1, h2⟩

theorem segsOk_norm (o : Nat) (segs : List (List Str × List BodyLine)) (h : segsOk o segs) :
    segsOk o (segs.map (fun s => (s.1, s.2.map BodyLine.norm))) := by
  induction segs generalizing o with
  | nil => simp [segsOk]
  | cons x segs ih =>
    obtain ⟨gap, body⟩ := x
    obtain ⟨h1, h2, h3⟩ := h
    simp only [List.map_cons, segsOk, oldLines_norm]
    refine ⟨h1, ?_, ih _ h3⟩
    intro s hs
    cases segs with
    | nil => simp at hs
    | cons y segs =>
      simp only [List.map_cons, List.head?_cons, Option.some.injEq] at hs
      subst hs
      exact h2 y rfl

theorem cut_norm_ok {f : FileChange} (hok : f.Ok) {cut : Cut} {heads : Nat → Str} (hbody : f.body = .text cut heads)
    (hcut : segsOk 0 cut.segs) : cut.norm.Ok := by
  have hl : ∀ s ∈ cut.segs, ∀ b ∈ s.2, NoNL b.text ∧ b.text.length < 100000000 := by
    obtain ⟨_, _, _, _, hl⟩ := hok
    have hsub : ∀ (o n : Nat) (segs : List (List Str × List BodyLine)), ∀ s ∈ segs, ∀ b ∈ s.2,
        b.text ∈ segLines heads o n segs := by
      intro o n segs
      induction segs generalizing o n with
      | nil => simp
      | cons x segs ih =>
        intro s hs b hb
        obtain ⟨gap, body⟩ := x
        simp only [segLines]
        rcases List.mem_cons.1 hs with rfl | hs
        · exact List.mem_append_left _ (List.mem_cons_of_mem _ (List.mem_map_of_mem hb))
        · exact List.mem_append_right _ (ih _ _ s hs b hb)
    intro s hs b hb
    apply hl
    simp only [FileChange.lines, hbody, Body.lines, List.mem_append]
    exact Or.inr (Or.inr (hsub 0 0 _ s hs b hb))
  refine ⟨segsOk_norm 0 _ hcut, ?_⟩
  intro s hs b hb
  obtain ⟨s', hs', rfl⟩ := List.mem_map.1 hs
  obtain ⟨b', hb', rfl⟩ := List.mem_map.1 hb
  rw [norm_text]
  have := hl s' hs' b' hb'
  exact ⟨dropCR_noNL this.1, Nat.lt_of_le_of_lt (dropCR_length _) this.2⟩

theorem sameLine_dropCR {x t : Str} (h : ∃ m ≤ 2, x = t ++ List.replicate m 13) : SameLine (dropCR t) x := by
  obtain ⟨m, hm, rfl⟩ := h
  rcases dropCR_cases t with h | h
  · exact ⟨m, by omega, by rw [← h]⟩
  · exact ⟨m + 1, by omega, by
      conv => lhs; rw [h]
      rw [List.append_assoc, List.replicate_succ]; rfl⟩

/-- The effect of a change, as read from the log, on stored lines. -/
structure Effect (f : FileChange) (o n : List Str) (cut : Cut) : Prop where
  ok : cut.Ok
  hunks : f.norm.meaning.hunks = cut.hunks
  notBin : f.norm.meaning.isBinary = false
  oldLen : (oldLines cut.script).length = o.length
  newLen : (newLines cut.script).length = n.length
  kept : ∀ j < n.length, ∀ i, f.body.source j = some i → n[j]? = o[i]? ∧ i < o.length ∧ ∀ c (ls : List Line), ls.length = o.length →
    (blameEdit c cut.script ls)[j]? = ls[i]? ∧ (attributions cut.script ls)[j]? = (ls[i]?).map (fun l => some l.commit)
  added : ∀ j < n.length, f.body.source j = none → ∀ c (ls : List Line), ls.length = o.length →
    (∃ t a, (blameEdit c cut.script ls)[j]? = some ⟨t, c⟩ ∧ n[j]? = some a ∧ SameLine t a) ∧
    (attributions cut.script ls)[j]? = some none

theorem attributions_keep (x : List Line) (g : List Str) (h : x.length = g.length) :
    attributions (g.map Edit.keep) x = x.map (fun l => some l.commit) := by
  induction g generalizing x with
  | nil => cases x with
    | nil => rfl
    | cons _ _ => simp at h
  | cons a g ih => cases x with
    | nil => simp at h
    | cons v x => simp [attributions, ih x (by simpa using h)]

theorem change_effect {f : FileChange} (hok : f.Ok) (hdel : f.kind.isDelete = false) {o n : List Str} (ht : f.body.Takes o n)
    (hb : f.body ≠ .binary) : ∃ cut, Effect f o n cut := by
  cases hbody : f.body with
  | binary => exact absurd hbody hb
  | empty =>
    rw [hbody] at ht
    cases ht
    refine ⟨⟨[], o⟩, ⟨⟨trivial, by simp [LinesOk]⟩, ?_, ?_, ?_, ?_, ?_, ?_⟩⟩
    · simp [FileChange.meaning, FileChange.norm, hbody, Body.hunks, Cut.hunks, segHunks]
    · simp [FileChange.meaning, FileChange.norm, hbody, Body.isBinary]
    · simp [Cut.script, segScript, oldLines_keep]
    · simp [Cut.script, segScript]
      induction o with
      | nil => rfl
      | cons a o ih => simp [newLines, ih]
    · intro j hj i hi
      rw [hbody] at hi
      simp only [Body.source, Option.some.injEq] at hi
      subst hi
      refine ⟨rfl, hj, fun c ls hl => ?_⟩
      simp only [Cut.script, segScript, List.nil_append]
      rw [blameEdit_keep c o ls hl, attributions_keep ls o hl]
      simp
    · intro j hj hi
      rw [hbody] at hi
      cases hi
  | text cut heads =>
    rw [hbody] at ht
    obtain ⟨h1, h2, h3⟩ := ht
    have hnear := near_norm2 cut
    have hok' : cut.norm.norm.Ok := cut_norm_ok (f := f.norm) (norm_ok hok) (heads := fun o => dropCR (heads o))
      (by simp [FileChange.norm, hbody]) (segsOk_norm 0 _ h3)
    have hd' : f.norm.kind.isDelete = false := hdel
    refine ⟨cut.norm.norm, ⟨hok', ?_, ?_, ?_, ?_, ?_, ?_⟩⟩
    · simp only [FileChange.meaning, hd']
      simp [FileChange.norm, hbody, Body.hunks]
    · simp [FileChange.meaning, FileChange.norm, hbody, Body.isBinary]
    · rw [hnear.oldLen, h1]
    · rw [hnear.newLen, h2]
    · intro j hj i hi
      rw [hbody] at hi
      simp only [Body.source] at hi
      have hlt : j < (sources cut.script 0).length := by rw [sources_length, h2]; exact hj
      rw [List.getElem?_eq_getElem hlt] at hi
      have hs : (sources cut.script 0)[j]? = some (some i) := by rw [List.getElem?_eq_getElem hlt]; simpa using hi
      have key := fun c ls hl => (near_source hnear c ls 0 hl j).1 i hs
      have hx := key [] ((oldLines cut.script).map (fun t => ⟨t, []⟩)) (by simp)
      refine ⟨?_, ?_, ?_⟩
      · rw [← h1, ← h2]; simpa using hx.2.2.2.1
      · rw [← h1]; simpa using hx.2.1
      · intro c ls hl
        obtain ⟨_, _, g3, _, g5⟩ := key c ls (by rw [hl, h1])
        exact ⟨by simpa using g3, by simpa using g5⟩
    · intro j hj hi c ls hl
      rw [hbody] at hi
      simp only [Body.source] at hi
      have hlt : j < (sources cut.script 0).length := by rw [sources_length, h2]; exact hj
      rw [List.getElem?_eq_getElem hlt] at hi
      have hs : (sources cut.script 0)[j]? = some none := by rw [List.getElem?_eq_getElem hlt]; simpa using hi
      obtain ⟨t, x, g1, g2, g3, g4⟩ := (near_source hnear c ls 0 (by rw [hl, h1]) j).2 hs
      exact ⟨⟨_, x, g3, by rw [← h2]; exact g1, sameLine_dropCR g2⟩, g4⟩

end Ripsrc
