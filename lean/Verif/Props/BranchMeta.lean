import Verif.Model.BranchMeta
import Verif.Spec.BranchMeta
import Verif.Props.GitBlame
/-!
# C47: the branch listing
-/
namespace Ripsrc
open Spec

theorem hex_not_space : ∀ b : UInt8, ((48 ≤ b ∧ b ≤ 57) ∨ (97 ≤ b ∧ b ≤ 102)) →
    (isSpaceByte b = false ∧ b < 128) ∧ b ≠ 40 ∧ b ≠ 64 ∧ b ≠ 10 := by
  intro b h
  simp only [isSpaceByte, Bool.or_eq_false_iff, decide_eq_false_iff_not]
  refine ⟨⟨⟨⟨⟨⟨⟨?_, ?_⟩, ?_⟩, ?_⟩, ?_⟩, ?_⟩, ?_⟩, ?_, ?_, ?_⟩
  case refine_7 =>
    rcases h with h | h
    · exact UInt8.lt_of_le_of_lt h.2 (by decide)
    · exact UInt8.lt_of_le_of_lt h.2 (by decide)
  all_goals (rintro rfl; revert h; decide)

theorem ref_line_shape0 {r : RefEntry} (hcm : r.commit ≠ [] ∧ ∀ b ∈ r.commit, (48 ≤ b ∧ b ≤ 57) ∨ (97 ≤ b ∧ b ≤ 102))
    (hdt : ∃ d c, r.date = d ++ [c] ∧ 48 ≤ c ∧ c ≤ 57) : ∃ c t, r.line = c :: t ∧ c ≠ 40 ∧ trimSpace r.line = r.line := by
  obtain ⟨hne, hhex⟩ := hcm
  obtain ⟨d, e, hd, he1, he2⟩ := hdt
  cases hc : r.commit with
  | nil => exact absurd hc hne
  | cons c t =>
    have hx := hex_not_space c (hhex c (by simp [hc]))
    refine ⟨c, t ++ (b!"@@@" ++ (r.name ++ (b!"@@@" ++ r.date))), by simp [RefEntry.line, hc], hx.2.1, ?_⟩
    refine trimSpace_id (c := c) (t := t ++ (b!"@@@" ++ (r.name ++ (b!"@@@" ++ r.date)))) (d := e)
      (u := r.commit ++ (b!"@@@" ++ (r.name ++ (b!"@@@" ++ d)))) (by simp [RefEntry.line, hc]) (by simp [RefEntry.line, hd]) hx.1
      (hex_not_space e (Or.inl ⟨he1, he2⟩)).1

theorem ref_line_shape {r : RefEntry} (h : r.Ok) : ∃ c t, r.line = c :: t ∧ c ≠ 40 ∧ trimSpace r.line = r.line :=
  ref_line_shape0 h.commit h.date.2

theorem ref_line_noNL {r : RefEntry} (h : r.Ok) : NoNL r.line := by
  have h1 : NoNL r.commit := fun hc => (hex_not_space 10 (h.commit.2 10 hc)).2.2.2 rfl
  have h2 := h.name.1
  have h3 := h.date.1
  simp only [NoNL, RefEntry.line, List.mem_append, not_or] at *
  exact ⟨h1, by decide, h2, by decide, h3⟩

theorem ref_cuts {r : RefEntry} (h : r.Ok) : cut b!"@@@" r.line = some (r.commit, r.name ++ (b!"@@@" ++ r.date)) ∧
    cut b!"@@@" (r.name ++ (b!"@@@" ++ r.date)) = some (r.name, r.date) := by
  refine ⟨cut_append _ _ _ (firstAt_of_not_mem (c := 64) rfl ?_), cut_append _ _ _ h.name.2⟩
  intro hc
  exact (hex_not_space 64 (h.commit.2 64 hc)).2.2.1 rfl

theorem branchLine_ref {τ : Type} (parseDate : Str → Option τ) (opts : BranchOpts) (d : Str) (r : RefEntry) (t : τ) (h : r.Ok)
    (ht : parseDate r.date = some t) (ho : opts.useOrigin = true → ∃ n, r.name = b!"origin/" ++ n) :
    branchLine parseDate opts d r.line = .ok (if r.Wanted opts.useOrigin opts.includeDefault d then
      some { name := r.shown opts.useOrigin, commit := r.commit, time := t } else none) := by
  obtain ⟨c, t', hl, hc, htrim⟩ := ref_line_shape h
  obtain ⟨h1, h2⟩ := ref_cuts h
  unfold branchLine
  rw [hl] at h1 htrim ⊢
  rw [htrim]
  simp only [hc, if_false, h1, h2, ht]
  rw [if_neg (by
    rintro ⟨a, b⟩
    obtain ⟨n, hn⟩ := ho a
    rw [hn, startsWith_append] at b
    cases b)]
  by_cases hw : r.Wanted opts.useOrigin opts.includeDefault d
  · rw [if_pos hw]
    obtain ⟨a, b⟩ := hw
    simp only [RefEntry.shown] at a b ⊢
    rw [if_neg a, if_neg (fun ⟨x, y⟩ => b x y)]
  · rw [if_neg hw]
    simp only [RefEntry.Wanted, RefEntry.shown, ne_eq, not_and, Classical.not_imp, Classical.not_not] at hw
    by_cases a : (if opts.useOrigin = true then List.drop 7 r.name else r.name) = b!"HEAD"
    · rw [if_pos a]
    · rw [if_neg a, if_pos (hw a)]

theorem branchLoop_refs {τ : Type} (parseDate : Str → Option τ) (opts : BranchOpts) (d : Str) (rs : List (RefEntry × τ))
    (h : ∀ r ∈ rs, r.1.Ok ∧ parseDate r.1.date = some r.2 ∧ (opts.useOrigin = true → ∃ n, r.1.name = b!"origin/" ++ n)) :
    branchLoop parseDate opts d (rs.map (fun r => r.1.line) ++ [[]]) =
      .ok ((rs.filter (fun r => decide (r.1.Wanted opts.useOrigin opts.includeDefault d))).map
        (fun r => { name := r.1.shown opts.useOrigin, commit := r.1.commit, time := r.2 })) := by
  induction rs with
  | nil => rfl
  | cons r rs ih =>
    obtain ⟨h1, h2, h3⟩ := h r (by simp)
    simp only [List.map_cons, List.cons_append, branchLoop, branchLine_ref parseDate opts d r.1 r.2 h1 h2 h3,
      ih (fun x hx => h x (by simp [hx]))]
    by_cases hw : r.1.Wanted opts.useOrigin opts.includeDefault d
    · simp [hw]; rfl
    · simp [hw]; rfl

/-- **C47.** For every ref listing with distinct ref names, `Get` succeeds with exactly one possible result: the listed refs, in
origin mode without `origin/`, minus HEAD and, unless requested, minus the default branch, each with its commit and time,
sorted by name. -/
theorem C47_branch_listing {τ : Type} (parseDate : Str → Option τ) (opts : BranchOpts) (d : Str) (rs : List (RefEntry × τ))
    (hd : d ≠ [] ∧ Trimmed d)
    (h : ∀ r ∈ rs, r.1.Ok ∧ parseDate r.1.date = some r.2 ∧ (opts.useOrigin = true → ∃ n, r.1.name = b!"origin/" ++ n))
    (hnd : (rs.map (fun r => r.1.name)).Nodup) :
    ∃ m, BranchGet parseDate opts (d ++ [10]) (refText (rs.map Prod.fst)) (.ok m) ∧
      (∀ res, BranchGet parseDate opts (d ++ [10]) (refText (rs.map Prod.fst)) res → res = .ok m) ∧
      (∀ b, b ∈ m ↔ ∃ r ∈ rs, r.1.Wanted opts.useOrigin opts.includeDefault d ∧
        b = { name := r.1.shown opts.useOrigin, commit := r.1.commit, time := r.2 }) ∧
      (m.map BranchTime.name).Nodup ∧ Sorted strLe (m.map BranchTime.name) := by
  have htrim : trimSpace (d ++ [10]) = d := trimSpace_line hd.2
  have hlines : splitByte 10 (refText (rs.map Prod.fst)) = rs.map (fun r => r.1.line) ++ [[]] := by
    unfold refText
    rw [splitByte_unlines _ (by
      intro l hl
      simp only [List.mem_map] at hl
      obtain ⟨r, ⟨x, hx, rfl⟩, rfl⟩ := hl
      exact ref_line_noNL (h x hx).1)]
    simp [List.map_map, Function.comp_def]
  have hun : branchGetUnsorted parseDate opts (d ++ [10]) (refText (rs.map Prod.fst)) =
      .ok ((rs.filter (fun r => decide (r.1.Wanted opts.useOrigin opts.includeDefault d))).map
        (fun r => { name := r.1.shown opts.useOrigin, commit := r.1.commit, time := r.2 })) := by
    unfold branchGetUnsorted getDefaultBranch
    simp only [htrim, hd.1, if_false, hlines]
    exact branchLoop_refs parseDate opts d rs h
  generalize hl : (rs.filter (fun r => decide (r.1.Wanted opts.useOrigin opts.includeDefault d))).map
        (fun r => ({ name := r.1.shown opts.useOrigin, commit := r.1.commit, time := r.2 } : BranchTime τ)) = l at hun
  have hmem : ∀ b, b ∈ l ↔ ∃ r ∈ rs, r.1.Wanted opts.useOrigin opts.includeDefault d ∧
        b = { name := r.1.shown opts.useOrigin, commit := r.1.commit, time := r.2 } := by
    intro b
    rw [← hl]
    simp only [List.mem_map, List.mem_filter, decide_eq_true_eq]
    exact ⟨fun ⟨r, ⟨h1, h2⟩, h3⟩ => ⟨r, h1, h2, h3.symm⟩, fun ⟨r, h1, h2, h3⟩ => ⟨r, ⟨h1, h2⟩, h3.symm⟩⟩
  have hnames : (l.map BranchTime.name).Nodup := by
    rw [← hl, List.map_map]
    show ((rs.filter _).map (fun r => r.1.shown opts.useOrigin)).Nodup
    have hnd2 : ((rs.filter (fun r => decide (r.1.Wanted opts.useOrigin opts.includeDefault d))).map (fun r => r.1.name)).Nodup :=
      hnd.sublist (List.filter_sublist.map _)
    have hor : ∀ r ∈ rs.filter (fun r => decide (r.1.Wanted opts.useOrigin opts.includeDefault d)),
        opts.useOrigin = true → ∃ n, r.1.name = b!"origin/" ++ n := fun r hr => (h r (List.mem_filter.1 hr).1).2.2
    generalize rs.filter (fun r => decide (r.1.Wanted opts.useOrigin opts.includeDefault d)) = fs at hnd2 hor
    induction fs with
    | nil => simp
    | cons r fs ih =>
      simp only [List.map_cons, List.nodup_cons] at hnd2 ⊢
      refine ⟨?_, ih hnd2.2 (fun x hx => hor x (by simp [hx]))⟩
      intro hc
      obtain ⟨r', hr', he⟩ := List.mem_map.1 hc
      apply hnd2.1
      refine List.mem_map.2 ⟨r', hr', ?_⟩
      simp only [RefEntry.shown] at he
      cases ho : opts.useOrigin with
      | false => simpa [ho] using he
      | true =>
        obtain ⟨n1, hn1⟩ := hor r (by simp) ho
        obtain ⟨n2, hn2⟩ := hor r' (by simp [hr']) ho
        simp only [ho, if_true, hn1, hn2] at he
        rw [hn1, hn2]
        simpa using he
  have huniq : ∀ m m', IsSort (fun a b => strLe a.name b.name) l m → IsSort (fun a b => strLe a.name b.name) l m' → m = m' := by
    intro m m' hm hm'
    refine sorted_perm_unique ?_ (hm.1.trans hm'.1.symm) hm.2 hm'.2
    intro a ha b hb h1 h2
    have hname := strLe_antisymm _ _ h1 h2
    have ha' := (hm.1.mem_iff).1 ha
    have hb' := (hm.1.mem_iff).1 hb
    -- distinct names
    clear hm hm' hmem hun hl
    induction l with
    | nil => cases ha'
    | cons x l ih =>
      simp only [List.map_cons, List.nodup_cons] at hnames
      rcases List.mem_cons.1 ha' with rfl | ha'
      · rcases List.mem_cons.1 hb' with rfl | hb'
        · rfl
        · exact absurd (List.mem_map.2 ⟨b, hb', hname.symm⟩) hnames.1
      · rcases List.mem_cons.1 hb' with rfl | hb'
        · exact absurd (List.mem_map.2 ⟨a, ‹a ∈ l›, hname⟩) hnames.1
        · exact ih hnames.2 ha' hb'
  have hsort : IsSort (fun a b => strLe a.name b.name) l (isort (fun a b => strLe a.name b.name) l) :=
    ⟨isort_perm _ _, isort_sorted (fun a b => strLe_total a.name b.name) (fun a b c => strLe_trans a.name b.name c.name) _⟩
  refine ⟨isort (fun a b => strLe a.name b.name) l, ?_, ?_, ?_, ?_, ?_⟩
  · simp only [BranchGet, hun]
    exact ⟨_, rfl, hsort⟩
  · intro res hres
    simp only [BranchGet, hun] at hres
    obtain ⟨m, rfl, hm⟩ := hres
    rw [huniq _ _ hm hsort]
  · intro b
    rw [(isort_perm _ l).mem_iff]
    exact hmem b
  · exact (List.Perm.nodup_iff ((isort_perm _ l).map _)).2 hnames
  · have := hsort.2
    unfold Sorted at *
    rw [List.pairwise_map]
    exact this

/-- A listing in origin mode: HEAD, the default branch and two branches; a name with `@@` inside. -/
def exRefs : List RefEntry :=
  [⟨b!"aa", b!"origin/HEAD", b!"Tue +0100"⟩, ⟨b!"bb", b!"origin/x@@y", b!"Tue +0100"⟩, ⟨b!"aa", b!"origin/master", b!"Tue +0100"⟩,
   ⟨b!"cc", b!"origin/a", b!"Tue +0100"⟩]

def exRefOpts : BranchOpts := { useOrigin := true, includeDefault := false }

theorem exRefs_ok : ∀ r ∈ exRefs, r.Ok := by
  intro r hr
  simp only [exRefs, List.mem_cons, List.not_mem_nil, or_false] at hr
  rcases hr with rfl | rfl | rfl | rfl <;>
    exact ⟨by decide, ⟨by decide, by unfold FirstAt; decide⟩, ⟨by decide, b!"Tue +010", 48, by decide, by decide, by decide⟩⟩

example : ∃ d : Str, (d ≠ [] ∧ Trimmed d) ∧
    (∀ r ∈ exRefs.map (fun r => (r, ())), r.1.Ok ∧ (fun _ => some ()) r.1.date = some r.2 ∧
      (exRefOpts.useOrigin = true → ∃ n, r.1.name = b!"origin/" ++ n)) ∧
    ((exRefs.map (fun r => (r, ()))).map (fun r => r.1.name)).Nodup ∧
    (exRefs.filter (fun r => decide (r.Wanted true false d))).length = 2 := by
  refine ⟨b!"master", by decide, ?_, by decide, by decide⟩
  intro r hr
  obtain ⟨x, hx, rfl⟩ := List.mem_map.1 hr
  refine ⟨exRefs_ok x hx, rfl, fun _ => ?_⟩
  simp only [exRefs, List.mem_cons, List.not_mem_nil, or_false] at hx
  rcases hx with rfl | rfl | rfl | rfl
  · exact ⟨b!"HEAD", rfl⟩
  · exact ⟨b!"x@@y", rfl⟩
  · exact ⟨b!"master", rfl⟩
  · exact ⟨b!"a", rfl⟩

/-- A ref under `refs/remotes/origin` whose short name is not `origin/...` makes `Get` panic; recent versions of git print
`origin` for `refs/remotes/origin/HEAD`. -/
theorem C47_short_origin_panics {τ : Type} (parseDate : Str → Option τ) (i : Bool) (d : Str) (r : RefEntry) (t : τ)
    (h : r.Ok) (ht : parseDate r.date = some t) (hn : r.name = b!"origin") :
    branchLine parseDate { useOrigin := true, includeDefault := i } d r.line =
      .error (.panic "branch name does not have origin/ prefix") := by
  obtain ⟨c, t', hl, hc, htrim⟩ := ref_line_shape h
  obtain ⟨h1, h2⟩ := ref_cuts h
  unfold branchLine
  rw [hl] at h1 htrim ⊢
  rw [htrim]
  simp only [hc, if_false, h1, h2, ht]
  rw [if_pos ⟨trivial, by rw [hn]; decide⟩]

/-! ### Lines and outputs that are not a plain listing -/

/-- **C47.** A line in parentheses (git's entry for a detached head) or a blank line anywhere in the listing changes nothing,
neither the result nor the failures. -/
theorem C47_extra_lines {τ : Type} (parseDate : Str → Option τ) (opts : BranchOpts) (headOut : Str) (ls1 ls2 : List Str)
    (sp t : Str) (h1 : ∀ l ∈ ls1, NoNL l) (h2 : ∀ l ∈ ls2, NoNL l) (hsp : ∀ b ∈ sp, isSpaceByte b = true) (hnl : NoNL sp)
    (ht : NoNL t) (l : Str) (hl : l = sp ∨ l = sp ++ 40 :: t) (res : Go (List (BranchTime τ))) :
    BranchGet parseDate opts headOut (unlines (ls1 ++ l :: ls2)) res ↔
      BranchGet parseDate opts headOut (unlines (ls1 ++ ls2)) res := by
  have hlnl : NoNL l := by
    rcases hl with rfl | rfl
    · exact hnl
    · simp only [NoNL, List.mem_append, List.mem_cons, not_or] at *
      exact ⟨hnl, by decide, ht⟩
  have hline : ∀ d, branchLine parseDate opts d l = .ok none := by
    intro d
    unfold branchLine
    rcases hl with rfl | rfl
    · rw [trimSpace_white hsp]
    · obtain ⟨u, hu⟩ := trimSpace_keeps sp t (c := 40) hsp (by decide)
      rw [hu]; simp
  have hloop : ∀ d ls3, branchLoop parseDate opts d (ls1 ++ l :: ls3) = branchLoop parseDate opts d (ls1 ++ ls3) := by
    intro d ls3
    induction ls1 with
    | nil =>
      simp only [List.nil_append, branchLoop, hline]
      cases branchLoop parseDate opts d ls3 <;> rfl
    | cons x ls1 ih =>
      simp only [List.cons_append, branchLoop]
      rw [ih (fun y hy => h1 y (by simp [hy]))]
  have : branchGetUnsorted parseDate opts headOut (unlines (ls1 ++ l :: ls2)) =
      branchGetUnsorted parseDate opts headOut (unlines (ls1 ++ ls2)) := by
    unfold branchGetUnsorted
    rw [splitByte_unlines _ (by
        intro x hx
        simp only [List.mem_append, List.mem_cons] at hx
        rcases hx with hx | rfl | hx
        · exact h1 x hx
        · exact hlnl
        · exact h2 x hx),
      splitByte_unlines _ (by
        intro x hx
        rcases List.mem_append.1 hx with hx | hx
        · exact h1 x hx
        · exact h2 x hx)]
    have h := fun d => hloop d (ls2 ++ [[]])
    simp only [List.append_assoc, List.cons_append] at h ⊢
    simp only [h]
  unfold BranchGet
  rw [this]

example : ∃ (ls1 ls2 : List Str) (sp t l : Str), (∀ l ∈ ls1, NoNL l) ∧ (∀ l ∈ ls2, NoNL l) ∧
    (∀ b ∈ sp, isSpaceByte b = true) ∧ NoNL sp ∧ NoNL t ∧ l = sp ++ 40 :: t ∧ ls1 ≠ [] ∧ l = b!" (HEAD detached at faeab7d)" :=
  ⟨[b!"aa@@@a@@@Tue +0100"], [], b!" ", b!"HEAD detached at faeab7d)", b!" (HEAD detached at faeab7d)", by decide, by decide,
    by decide, by decide, by decide, by decide, by decide, by decide⟩

/-- **C47.** Without the name of the default branch there is no listing, whatever the refs are. -/
theorem C47_no_default_name {τ : Type} (parseDate : Str → Option τ) (opts : BranchOpts) (headOut data : Str)
    (h : ∀ b ∈ headOut, isSpaceByte b = true) (res : Go (List (BranchTime τ))) :
    BranchGet parseDate opts headOut data res ↔ res = .error (.error "could not get the default branch name") := by
  unfold BranchGet branchGetUnsorted getDefaultBranch
  rw [trimSpace_white h]
  simp [bind, Except.bind]

example : ∀ b ∈ b!" \n", isSpaceByte b = true := by decide

/-- **C47.** The default branch: what git prints for the abbreviated and for the full name of HEAD. A detached head (printed as
`HEAD`) and anything that is not 40 bytes long are errors. -/
theorem C47_default_branch (name commit : Str) (hn : Trimmed name) (hc : Trimmed commit) :
    (∀ n c, branchGetDefault (name ++ [10]) (commit ++ [10]) = .ok (n, c) ↔
      (n = name ∧ c = commit ∧ name ≠ b!"HEAD" ∧ commit.length = 40)) ∧
    (∀ f, branchGetDefault (name ++ [10]) (commit ++ [10]) = .error f → ∃ e, f = .error e) := by
  unfold branchGetDefault
  rw [trimSpace_word hn, trimSpace_word hc]
  by_cases h1 : name = b!"HEAD"
  · simp [h1]
  · by_cases h2 : commit.length = 40
    · simp [h1, h2]
      intro n c
      exact ⟨fun ⟨a, b⟩ => ⟨a.symm, b.symm⟩, fun ⟨a, b⟩ => ⟨a.symm, b.symm⟩⟩
    · simp [h1, h2]

example : Trimmed b!"master" ∧ Trimmed b!"0123456789012345678901234567890123456789" ∧
    b!"0123456789012345678901234567890123456789".length = 40 := by decide

end Ripsrc
