import Verif.Lib.Apply
/-!
# `Apply` and `ApplyMerge` on edit scripts, counting lines only
-/
namespace Ripsrc
open Spec

theorem newStored_length (es : List Edit) : (newStored es).length = (newLines es).length := by
  induction es with
  | nil => rfl
  | cons e es ih => cases e <;> simp [newStored, newLines, ih]

theorem blameEdit_length (c : Str) (es : List Edit) (x : List Line) (h : x.length = (oldLines es).length) :
    (blameEdit c es x).length = (newLines es).length := by
  induction es generalizing x with
  | nil => cases x <;> simp [blameEdit, newLines]
  | cons e es ih =>
    cases e with
    | keep l =>
      cases x with
      | nil => simp [oldLines] at h
      | cons v x => simp [blameEdit, newLines, ih x (by simpa [oldLines] using h)]
    | del l =>
      cases x with
      | nil => simp [oldLines] at h
      | cons v x => simp [blameEdit, newLines, ih x (by simpa [oldLines] using h)]
    | add l => simp [blameEdit, newLines, ih x (by simpa [oldLines] using h)]

/-- `Apply` depends only on the *number* of old lines: kept lines are copied from the blame. -/
theorem apply_script (srt : List Hunk → List Hunk) (hsrt : SortsHunks srt) (cut : Cut) (hok : cut.Ok)
    (file : Blame) (hbin : file.isBinary = false) (hold : file.lines.length = (oldLines cut.script).length)
    (diff : Diff) (hdbin : diff.isBinary = false) (hh : diff.hunks.Perm cut.hunks) (commit : Str) :
    apply srt file diff commit = .ok { commit := commit, lines := blameEdit commit cut.script file.lines } := by
  obtain ⟨segs, tail⟩ := cut
  obtain ⟨hsegs, hlines⟩ := hok
  obtain ⟨hsorted, hinj⟩ := segHunks_sorted segs hsegs
  have hloc : ∀ h ∈ diff.hunks, h.locations ≠ [] := fun h h' => segHunks_loc 0 0 segs h (hh.mem_iff.1 h')
  have hs : srt diff.hunks = segHunks 0 0 segs := by
    rw [srt_unique hsrt isort_sortsHunks hh hloc
      (fun a ha b hb => hinj a (hh.mem_iff.1 ha) b (hh.mem_iff.1 hb))]
    exact isort_eq_self hsorted
  simp only [Cut.script, oldLines_append, oldLines_keep] at hold
  obtain ⟨m, t, hmt, hm⟩ : ∃ m t, file.lines = m ++ t ∧ m.length = (oldLines (segScript segs)).length := by
    refine ⟨file.lines.take (oldLines (segScript segs)).length, file.lines.drop (oldLines (segScript segs)).length,
      (List.take_append_drop _ _).symm, ?_⟩
    simp only [List.length_append] at hold
    simp only [List.length_take]
    omega
  have ht : t.length = tail.length := by
    simp only [List.length_append, hmt] at hold
    omega
  have hany : diff.hunks.any (fun h => h.locations.isEmpty) = false := by
    rw [List.any_eq_false]
    intro h h'
    have := hloc h h'
    simpa using this
  have hrun := applySegs file.lines commit segs 0 0 [] m t [] (by simp [hmt]) rfl hm hsegs hlines
  unfold apply
  simp only [hbin, hdbin, hany, hs, Bool.false_eq_true, if_false]
  simp only [hrun, bind, Except.bind]
  have hcr := copyRange_ok file.lines ([] ++ blameEdit commit (segScript segs) m) m t [] (by simp [hmt])
    (file.lines.length : Int) (by simp [hmt])
  simp only [Nat.zero_add]
  rw [hcr]
  simp only [Cut.script, hmt, List.nil_append]
  rw [blameEdit_append commit (segScript segs) (tail.map Edit.keep) m t hm, blameEdit_keep commit tail t ht]

/-- `ApplyMerge`, with the numbers of lines only: the contents are those of the first parent's result. -/
theorem applyMerge_script (srt : List Hunk → List Hunk) (hsrt : SortsHunks srt) (commit : Str) (vlen : Nat)
    (ps : List (Blame × Diff × Cut)) (hne : ps ≠ [])
    (hps : ∀ p ∈ ps, p.2.2.Ok ∧ p.1.isBinary = false ∧ p.1.lines.length = (oldLines p.2.2.script).length ∧
      p.2.1.isBinary = false ∧ p.2.1.hunks.Perm p.2.2.hunks ∧ (newLines p.2.2.script).length = vlen ∧
      ∀ l ∈ p.1.lines, l.commit ≠ commit) :
    ∃ lines, applyMerge srt (ps.map (·.1)) (ps.map (·.2.1)) commit = .ok { commit := commit, lines := lines } ∧
      (∀ p0 ps', ps = p0 :: ps' → lines.map (·.line) = (blameEdit commit p0.2.2.script p0.1.lines).map (·.line)) ∧
      lines.map (·.commit) = (List.range vlen).map (fun i =>
        (firstSome (ps.map (fun p => ((attributions p.2.2.script p.1.lines)[i]?).getD none))).getD commit) := by
  have hc : mergeCands srt commit (ps.map (·.1)) (ps.map (·.2.1))
      = .ok (ps.map (fun p => { commit := commit, lines := blameEdit commit p.2.2.script p.1.lines })) := by
    clear hne
    induction ps with
    | nil => rfl
    | cons p ps ih =>
      obtain ⟨h1, h2, h3, h4, h5, _, _⟩ := hps p (by simp)
      simp only [List.map_cons, mergeCands]
      rw [apply_script srt hsrt p.2.2 h1 p.1 h2 h3 p.2.1 h4 h5 commit, ih (fun q hq => hps q (by simp [hq]))]
      rfl
  have hlen : ∀ p ∈ ps, (blameEdit commit p.2.2.script p.1.lines).length = vlen := by
    intro p hp
    obtain ⟨_, _, h3, _, _, h6, _⟩ := hps p hp
    rw [blameEdit_length commit _ _ h3, h6]
  obtain ⟨p0, ps', rfl⟩ : ∃ p0 ps', ps = p0 :: ps' := by
    cases ps with
    | nil => exact absurd rfl hne
    | cons p0 ps' => exact ⟨p0, ps', rfl⟩
  have hlen' : ∀ p ∈ p0 :: ps', (blameEdit commit p.2.2.script p.1.lines).length = vlen := hlen
  let cands : List Blame := (p0 :: ps').map (fun p => { commit := commit, lines := blameEdit commit p.2.2.script p.1.lines })
  have hcl : ∀ c ∈ cands, c.lines.length = vlen := by
    intro c hc
    obtain ⟨p, hp, rfl⟩ := List.mem_map.1 hc
    exact hlen' p hp
  have hmerge := mergeLines_spec commit cands vlen hcl
    (blameEdit commit p0.2.2.script p0.1.lines) 0 (by simpa using hlen' p0 (by simp))
  have hmem0 : ({ commit := commit, lines := blameEdit commit p0.2.2.script p0.1.lines } : Blame) ∈ cands := by
    simp [cands]
  refine ⟨(blameEdit commit p0.2.2.script p0.1.lines).zipIdx.map (fun p => pickAt commit cands p.1 p.2),
    ?run, ?content, ?attr⟩
  case run =>
    have hbin1 : ((p0 :: ps').map (·.1)).any (·.isBinary) = false := by
      rw [List.any_eq_false]
      intro b hb
      obtain ⟨p, hp, rfl⟩ := List.mem_map.1 hb
      simp [(hps p hp).2.1]
    have hbin2 : ((p0 :: ps').map (·.2.1)).any (·.isBinary) = false := by
      rw [List.any_eq_false]
      intro b hb
      obtain ⟨p, hp, rfl⟩ := List.mem_map.1 hb
      simp [(hps p hp).2.2.2.1]
    have hsame : cands.any (fun c => decide (c.lines.length ≠
        (blameEdit commit p0.2.2.script p0.1.lines).length)) = false := by
      rw [List.any_eq_false]
      intro c hc
      simp [hcl c hc, hlen' p0 (by simp)]
    unfold applyMerge
    rw [hbin1, hbin2, hc]
    simp only [Bool.false_eq_true, if_false, bind, Except.bind, List.map_cons]
    simp only [cands, List.map_cons] at hsame hmerge
    rw [hsame]
    simp only [Bool.false_eq_true, if_false, hmerge]
    rfl
  case content =>
    intro p1 ps1 he
    cases he
    apply List.ext_getElem
    · simp
    · intro i h1 h2
      simp only [List.getElem_map, List.getElem_zipIdx, pickAt]
      split <;> rfl
  case attr =>
    apply List.ext_getElem
    · simp [hlen' p0 (by simp)]
    · intro i h1 h2
      simp only [List.length_map, List.length_zipIdx, hlen' p0 (by simp)] at h1
      have heq : (p0 :: ps').map (fun p => ((attributions p.2.2.script p.1.lines)[i]?).getD none)
          = cands.map (fun c => (c.lines[i]?).bind (fun l => if l.commit ≠ commit then some l.commit else none)) := by
        simp only [cands, List.map_map]
        apply List.map_congr_left
        intro p hp
        obtain ⟨_, _, h3, _, _, _, h7⟩ := hps p hp
        simp only [Function.comp]
        rw [blameEdit_commits commit _ _ h3 h7, List.getElem?_map]
        cases (blameEdit commit p.2.2.script p.1.lines)[i]? <;> rfl
      simp only [List.getElem_map, List.getElem_zipIdx, List.getElem_range, Nat.zero_add, heq, pickAt]
      cases hf : firstSome (cands.map (fun c => (c.lines[i]?).bind
          (fun l => if l.commit ≠ commit then some l.commit else none))) with
      | some c => rfl
      | none =>
        have := firstSome_none hf _ (List.mem_map_of_mem hmem0)
        have hi : i < (blameEdit commit p0.2.2.script p0.1.lines).length := by rw [hlen' p0 (by simp)]; exact h1
        simp only [List.getElem?_eq_getElem hi, Option.bind_some] at this
        by_cases hcm : (blameEdit commit p0.2.2.script p0.1.lines)[i].commit = commit
        · simpa using hcm
        · rw [if_pos hcm] at this; cases this


end Ripsrc
