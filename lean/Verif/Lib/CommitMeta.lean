import Verif.Spec.CommitLog
import Verif.Props.Rename
import Verif.Lib.Text
import Verif.Lib.Parse
/-! # Lemmas about the commit metadata parser -/
namespace Ripsrc
open Spec

variable {τ : Type}

theorem startsWith_cons (a b : UInt8) (s t : Str) : startsWith (a :: s) (b :: t) = (decide (a = b) && startsWith s t) := by
  by_cases h : a = b
  · subst h
    simp only [decide_true, Bool.true_and]
    cases hs : startsWith s t with
    | true =>
      obtain ⟨r, rfl⟩ := startsWith_iff.1 hs
      exact startsWith_iff.2 ⟨r, rfl⟩
    | false =>
      cases hs2 : startsWith (a :: s) (a :: t) with
      | false => rfl
      | true =>
        obtain ⟨r, hr⟩ := startsWith_iff.1 hs2
        simp only [List.cons_append, List.cons.injEq, true_and] at hr
        rw [startsWith_iff.2 ⟨r, hr⟩] at hs
        cases hs
  · rw [startsWith_cons_ne h]; simp [h]

@[simp] theorem startsWith_nil (s : Str) : startsWith s [] = true := startsWith_iff.2 ⟨s, rfl⟩

/-- Running the parser over lines. -/
def metaSteps (parseDate : Str → Option τ) (p : MetaParser τ) : List Str → Go (MetaParser τ)
  | [] => .ok p
  | l :: ls => match metaParse parseDate p l with
    | .ok p' => metaSteps parseDate p' ls
    | .error f => .error f

theorem metaSteps_append {parseDate : Str → Option τ} {p p' : MetaParser τ} {a b : List Str} (h : metaSteps parseDate p a = .ok p') :
    metaSteps parseDate p (a ++ b) = metaSteps parseDate p' b := by
  induction a generalizing p with
  | nil => cases h; rfl
  | cons l a ih =>
    simp only [metaSteps, List.cons_append] at h ⊢
    cases hp : metaParse parseDate p l with
    | error f => rw [hp] at h; cases h
    | ok q => rw [hp] at h; exact ih h

theorem metaLoop_append {parseDate : Str → Option τ} {p p' : MetaParser τ} {a b : List Str} (h : metaSteps parseDate p a = .ok p') :
    metaLoop parseDate p (a ++ b) = metaLoop parseDate p' b := by
  induction a generalizing p with
  | nil => cases h; rfl
  | cons l a ih =>
    simp only [metaSteps, metaLoop, List.cons_append] at h ⊢
    cases hp : metaParse parseDate p l with
    | error f => rw [hp] at h; cases h
    | ok q => rw [hp] at h; exact ih h

theorem metaSteps_blank (parseDate : Str → Option τ) (p : MetaParser τ) (n : Nat) :
    metaSteps parseDate p (List.replicate n []) = .ok p := by
  induction n with
  | zero => rfl
  | succ n ih => simpa [List.replicate_succ, metaSteps, metaParse] using ih

/-- Commits sent once the current one is complete. -/
def MetaParser.flush (p : MetaParser τ) : List (MetaCommit τ) :=
  match p.commit with
  | some c => if c.sha ≠ [] then p.sent ++ [c] else p.sent
  | none => p.sent

theorem metaParse_sha (parseDate : Str → Option τ) (p : MetaParser τ) (sha : Str) (h : sha ≠ [] ∧ Token sha) :
    metaParse parseDate p (b!"!SHA: " ++ sha) = .ok
      { commit := some { sha := sha, ordinal := p.ordinal + 1 }, ordinal := p.ordinal + 1, state := .header, sent := p.flush } := by
  have hnosp : (32 : UInt8) ∉ sha := fun hc => absurd (h.2 32 hc) (by decide)
  have hnotab : (9 : UInt8) ∉ b!"!SHA: " ++ sha := by
    simp only [List.mem_append, not_or]
    exact ⟨by decide, fun hc => absurd (h.2 9 hc) (by decide)⟩
  have hhead : ∀ q : MetaParser τ, metaHeader parseDate q (b!"!SHA: " ++ sha) = .ok
      { q with sent := q.flush, ordinal := q.ordinal + 1, commit := some { sha := sha, ordinal := q.ordinal + 1 } } := by
    intro q
    unfold metaHeader
    rw [if_pos (startsWith_append _ _)]
    have hd : (b!"!SHA: " ++ sha).drop 6 = sha := rfl
    have hc : cut b!" " sha = none := cut_none (by
      rintro ⟨x, y, hxy⟩
      exact hnosp (by rw [← hxy]; simp))
    simp only [hd, hc]
    rfl
  have hdiff : ∀ q : MetaParser τ, metaDiff parseDate q (b!"!SHA: " ++ sha) = .ok
      { q with sent := q.flush, ordinal := q.ordinal + 1, commit := some { sha := sha, ordinal := q.ordinal + 1 }, state := .header } := by
    intro q
    unfold metaDiff
    have hsw : startsWith (b!"!SHA: " ++ sha) b!"!" = true := startsWith_iff.2 ⟨b!"SHA: " ++ sha, rfl⟩
    rw [if_pos hsw, hhead]
    rfl
  have hnum : ∀ q : MetaParser τ, metaNumStats parseDate q (b!"!SHA: " ++ sha) = .ok
      { q with sent := q.flush, ordinal := q.ordinal + 1, commit := some { sha := sha, ordinal := q.ordinal + 1 }, state := .header } := by
    intro q
    unfold metaNumStats
    rw [splitByte_last _ _ hnotab]
    simp only
    rw [hdiff]
    rfl
  unfold metaParse
  rw [if_neg (by simp)]
  cases hs : p.state with
  | header => simp only [hhead]; rw [hs]
  | files =>
    simp only [metaFiles]
    have hsw : startsWith (b!"!SHA: " ++ sha) b!":" = false := by
      rw [show (b!"!SHA: " ++ sha) = 33 :: (b!"SHA: " ++ sha) from rfl, startsWith_cons]; simp
    rw [hsw, if_neg (by simp), hnum]
    rfl
  | numStats => simp only [hnum]
  | diff => simp only [hdiff]

theorem joinWith_splitByte (c : UInt8) (s : Str) : joinWith [c] (splitByte c s) = s := by
  induction s with
  | nil => rfl
  | cons b s ih =>
    simp only [splitByte]
    have hne := splitByte_ne_nil c s
    cases hs : splitByte c s with
    | nil => exact absurd hs hne
    | cons l ls =>
      rw [hs] at ih
      by_cases h : b = c
      · simp only [h, if_true, joinWith, List.nil_append, List.singleton_append]
        rw [ih]
      · simp only [h, if_false]
        cases ls with
        | nil => simp only [joinWith] at ih ⊢; rw [ih]
        | cons m ls => simp only [joinWith, List.cons_append] at ih ⊢; rw [ih]

theorem trimLeft_id {s : Str} (h : s.head? ≠ some 32) : trimLeftSpaces s = s := by
  unfold trimLeftSpaces
  cases s with
  | nil => rfl
  | cons b s =>
    have : b ≠ 32 := by simpa using h
    simp [List.dropWhile, this]

theorem printed_not_mem {s : Str} (h : Printable s) (b : UInt8) (hb : b < 32) : b ∉ s := by
  intro hc
  have := h b hc
  exact absurd hb (by rw [UInt8.not_lt]; exact this)

theorem token_not_mem {s : Str} (h : Token s) (b : UInt8) (hb : b ≤ 32) : b ∉ s := by
  intro hc
  have := h b hc
  rw [UInt8.lt_iff_toNat_lt] at this
  rw [UInt8.le_iff_toNat_le] at hb
  omega

/-- The files map after the raw lines. -/
def cmPutAll (m : GoMap Str CommitFile) (es : List (Str × CommitFile)) : GoMap Str CommitFile :=
  es.foldl (fun m e => m.set e.1 e.2) m

theorem metaRawLine_rec (c : MetaCommit τ) (r : RawRec) (h : r.Ok) :
    metaRawLine c r.line = .ok { c with files := cmPutAll c.files r.entries } := by
  obtain ⟨h1, h2, h3, h4⟩ := h.modes
  have hs : splitByte 32 r.line = [58 :: r.oldMode, r.newMode, r.oldId, r.newId] ++ splitByte 32 r.tail := by
    unfold RawRec.line
    rw [splitByte_append _ _ _ (by simp only [List.mem_cons, not_or]; exact ⟨by decide, token_not_mem h1 32 (by decide)⟩),
      splitByte_append _ _ _ (token_not_mem h2 32 (by decide)), splitByte_append _ _ _ (token_not_mem h3 32 (by decide)),
      splitByte_append _ _ _ (token_not_mem h4 32 (by decide))]
    rfl
  have hpath := h.path
  have hpt : (9 : UInt8) ∉ r.path := printed_not_mem hpath.1 9 (by decide)
  have htrim := trimLeft_id hpath.2
  unfold metaRawLine
  simp only [hs, idx, List.cons_append, List.nil_append, List.getElem?_cons_succ, List.getElem?_cons_zero]
  simp only [bind, Except.bind]
  by_cases hreg : r.Regular
  · rw [if_neg (by
      rintro ⟨a, b⟩
      rcases hreg with hr | hr | hr
      · exact a (Or.inl hr)
      · exact a (Or.inr hr)
      · exact b hr)]
    rw [if_neg (by simp)]
    simp only [List.drop_succ_cons, List.drop_zero, joinWith_splitByte]
    unfold RawRec.entries
    rw [if_pos hreg]
    have hsrc := h.src
    unfold RawRec.tail
    cases hk : r.kind with
    | added =>
      simp only
      rw [splitByte_append _ _ _ (by decide), splitByte_last _ _ hpt]
      simp [toCommitStatus, htrim, MetaCommit.putFile, cmPutAll]
    | deleted =>
      simp only
      rw [splitByte_append _ _ _ (by decide), splitByte_last _ _ hpt]
      simp [toCommitStatus, htrim, MetaCommit.putFile, cmPutAll]
    | modified =>
      simp only
      rw [splitByte_append _ _ _ (by decide), splitByte_last _ _ hpt]
      simp [toCommitStatus, htrim, MetaCommit.putFile, cmPutAll]
    | typeChanged =>
      simp only
      rw [splitByte_append _ _ _ (by decide), splitByte_last _ _ hpt]
      simp [toCommitStatus, htrim, MetaCommit.putFile, cmPutAll]
    | renamed src score =>
      rw [hk] at hsrc
      obtain ⟨hs1, hs2, hs3⟩ := hsrc
      simp only
      rw [splitByte_append _ _ _ (by simp only [List.mem_cons, not_or]; exact ⟨by decide, token_not_mem hs2 9 (by decide)⟩),
        splitByte_append _ _ _ (printed_not_mem hs1.1 9 (by decide)), splitByte_last _ _ hpt]
      have hl : ¬ ((82 :: score).length = 1) := by
        cases score with
        | nil => exact absurd rfl hs3
        | cons x s => simp
      simp only [List.headD_cons, hl, if_false]
      have hsw : startsWith (82 :: score) b!"R" = true := by rw [startsWith_cons]; simp
      simp only [hsw, if_true]
      simp [htrim, trimLeft_id hs1.2, MetaCommit.putFile, cmPutAll]
    | copied src score =>
      rw [hk] at hsrc
      obtain ⟨hs1, hs2, hs3⟩ := hsrc
      simp only
      rw [splitByte_append _ _ _ (by simp only [List.mem_cons, not_or]; exact ⟨by decide, token_not_mem hs2 9 (by decide)⟩),
        splitByte_append _ _ _ (printed_not_mem hs1.1 9 (by decide)), splitByte_last _ _ hpt]
      have hl : ¬ ((67 :: score).length = 1) := by
        cases score with
        | nil => exact absurd rfl hs3
        | cons x s => simp
      simp only [List.headD_cons, hl, if_false]
      have hsw : startsWith (67 :: score) b!"C" = true := by rw [startsWith_cons]; simp
      have hsw2 : startsWith (67 :: score) b!"R" = false := by rw [startsWith_cons]; simp
      simp only [hsw, hsw2, if_true, Bool.false_eq_true, if_false]
      simp [htrim, trimLeft_id hs1.2, MetaCommit.putFile, cmPutAll]
  · rw [if_pos (by
      refine ⟨?_, fun hc => hreg (Or.inr (Or.inr hc))⟩
      rintro (hc | hc)
      · exact hreg (Or.inl hc)
      · exact hreg (Or.inr (Or.inl hc)))]
    simp [RawRec.entries, hreg, cmPutAll]

theorem metaParse_raw (parseDate : Str → Option τ) (p : MetaParser τ) (c : MetaCommit τ) (r : RawRec) (h : r.Ok)
    (hc : p.commit = some c) (hs : p.state = .files) :
    metaParse parseDate p r.line = .ok { p with commit := some { c with files := cmPutAll c.files r.entries } } := by
  unfold metaParse
  have hne : r.line ≠ [] := by simp [RawRec.line]
  rw [if_neg hne, hs]
  simp only [metaFiles]
  have hsw : startsWith r.line b!":" = true := by unfold RawRec.line; rw [List.cons_append, startsWith_cons]; simp
  rw [if_pos hsw]
  simp only [needCommit, hc, bind, Except.bind, metaRawLine_rec c r h, hs]

theorem metaSteps_raws (parseDate : Str → Option τ) (p : MetaParser τ) (c : MetaCommit τ) (rs : List RawRec) (h : ∀ r ∈ rs, r.Ok)
    (hc : p.commit = some c) (hs : p.state = .files) :
    metaSteps parseDate p (rs.map RawRec.line) =
      .ok { p with commit := some { c with files := cmPutAll c.files (rs.flatMap RawRec.entries) } } := by
  induction rs generalizing p c with
  | nil => cases p; simp_all [metaSteps, cmPutAll]
  | cons r rs ih =>
    simp only [List.map_cons, metaSteps, metaParse_raw parseDate p c r (h r (by simp)) hc hs]
    rw [ih { p with commit := some { c with files := cmPutAll c.files r.entries } } _ (fun x hx => h x (by simp [hx])) rfl hs]
    simp [cmPutAll]

theorem numName_getFilename {src : Option Str} {path name : Str} (h : NumName src path name) : (getFilename name).1 = path := by
  cases h with
  | same => rename_i h; rw [C40_no_rename _ h]
  | brace pre old new post h => rw [C40_brace_rename _ _ _ _ h]
  | arrow => rename_i ho hn hb; rw [C40_plain_rename _ _ ‹_› ‹_› ‹_›]

theorem parseInt32_itoa (n : Nat) (h : n < 2 ^ 31) : parseInt32 (itoa n) = (n : Int) := by
  unfold parseInt32
  have hne := itoa_ne_nil n
  have hd := itoa_digits n
  have hp := parseNat_itoa n
  cases hs : itoa n with
  | nil => exact absurd hs hne
  | cons b r =>
    rw [hs] at hd hp
    have hb := hd b (by simp)
    split
    · rename_i r' heq
      cases heq
      exact absurd hb.1 (by decide)
    · rename_i r' heq
      cases heq
      exact absurd hb.1 (by decide)
    · rw [hp]; simp [h]

/-- Entering the counts of one line. -/
def statPut (m : GoMap Str CommitFile) (s : StatRec) : GoMap Str CommitFile :=
  m.set s.path (s.enter ((m.get s.path).getD { filename := s.path, status := .modified }))

theorem metaNumStats_stat (parseDate : Str → Option τ) (p : MetaParser τ) (c : MetaCommit τ) (s : StatRec) (h : s.Ok)
    (hc : p.commit = some c) :
    metaNumStats parseDate p s.line = .ok { p with commit := some { c with files := statPut c.files s } } := by
  have hnt : (9 : UInt8) ∉ s.name := printed_not_mem h.printed 9 (by decide)
  have hg := numName_getFilename h.name
  unfold metaNumStats
  cases hcnt : s.counts with
  | none =>
    have hl : s.line = b!"-" ++ 9 :: (b!"-" ++ 9 :: s.name) := by simp only [StatRec.line, hcnt]
    rw [hl, splitByte_append _ _ _ (by decide), splitByte_append _ _ _ (by decide), splitByte_last _ _ hnt]
    simp only [needCommit, hc, bind, Except.bind]
    simp [metaNumStat, hg, MetaCommit.putFile, statPut, StatRec.enter, hcnt]
  | some ad =>
    obtain ⟨a, d⟩ := ad
    obtain ⟨ha, hd⟩ := h.counts a d hcnt
    have hl : s.line = itoa a ++ 9 :: (itoa d ++ 9 :: s.name) := by simp only [StatRec.line, hcnt]
    rw [hl, splitByte_append _ _ _ (itoa_not_mem a 9 (by decide)), splitByte_append _ _ _ (itoa_not_mem d 9 (by decide)),
      splitByte_last _ _ hnt]
    have hna : itoa a ≠ b!"-" := by
      intro hc
      exact itoa_not_mem a 45 (by decide) (by rw [hc]; simp)
    simp only [needCommit, hc, bind, Except.bind]
    simp [metaNumStat, hg, MetaCommit.putFile, statPut, StatRec.enter, hcnt, hna, parseInt32_itoa a ha, parseInt32_itoa d hd]

theorem stat_line_head (s : StatRec) : ∃ b t, s.line = b :: t ∧ b ≠ 58 ∧ b ≠ 33 := by
  cases hcnt : s.counts with
  | none => exact ⟨45, _, by simp only [StatRec.line, hcnt]; rfl, by decide, by decide⟩
  | some ad =>
    obtain ⟨a, d⟩ := ad
    have hne := itoa_ne_nil a
    have hd := itoa_digits a
    cases hs : itoa a with
    | nil => exact absurd hs hne
    | cons b r =>
      have hb := hd b (by rw [hs]; simp)
      refine ⟨b, r ++ 9 :: (itoa d ++ 9 :: s.name), by simp only [StatRec.line, hcnt, hs]; rfl, ?_, ?_⟩
      · rintro rfl; exact absurd hb.2 (by decide)
      · rintro rfl; exact absurd hb.1 (by decide)

theorem metaParse_stat (parseDate : Str → Option τ) (p : MetaParser τ) (c : MetaCommit τ) (s : StatRec) (h : s.Ok)
    (hc : p.commit = some c) (hs : p.state = .files ∨ p.state = .numStats) :
    metaParse parseDate p s.line = .ok { p with commit := some { c with files := statPut c.files s }, state := .numStats } := by
  obtain ⟨b, t, hbt, hb1, _⟩ := stat_line_head s
  unfold metaParse
  rw [if_neg (by rw [hbt]; simp)]
  rcases hs with hs | hs
  · rw [hs]
    simp only [metaFiles]
    have hsw : startsWith s.line b!":" = false := by rw [hbt, startsWith_cons]; simp [hb1]
    rw [hsw, if_neg (by simp), metaNumStats_stat parseDate _ c s h (by exact hc)]
  · rw [hs]
    simp only
    rw [metaNumStats_stat parseDate _ c s h hc]
    cases p
    simp_all

theorem metaSteps_stats (parseDate : Str → Option τ) (p : MetaParser τ) (c : MetaCommit τ) (ss : List StatRec) (h : ∀ s ∈ ss, s.Ok)
    (hc : p.commit = some c) (hs : p.state = .files ∨ p.state = .numStats) :
    metaSteps parseDate p (ss.map StatRec.line) =
      .ok { p with commit := some { c with files := ss.foldl statPut c.files }, state := if ss = [] then p.state else .numStats } := by
  induction ss generalizing p c with
  | nil => cases p; simp_all [metaSteps]
  | cons s ss ih =>
    simp only [List.map_cons, metaSteps, metaParse_stat parseDate p c s (h s (by simp)) hc hs]
    rw [ih _ _ (fun x hx => h x (by simp [hx])) rfl (Or.inr rfl)]
    simp

theorem metaParse_combined (parseDate : Str → Option τ) (p : MetaParser τ) (l : Str)
    (h : l.head? = some 58 ∧ (splitByte 9 l).length = 2) (hs : p.state = .numStats ∨ p.state = .diff) :
    metaParse parseDate p l = .ok { p with state := .diff } := by
  obtain ⟨h1, h2⟩ := h
  obtain ⟨t, rfl⟩ : ∃ t, l = 58 :: t := by
    cases l with
    | nil => cases h1
    | cons b t => simp at h1; exact ⟨t, by rw [h1]⟩
  have hd : ∀ q : MetaParser τ, metaDiff parseDate q (58 :: t) = .ok q := by
    intro q
    unfold metaDiff
    have hsw : startsWith (58 :: t) b!"!" = false := by rw [startsWith_cons]; simp
    rw [hsw, if_neg (by simp)]
  unfold metaParse
  rw [if_neg (by simp)]
  rcases hs with hs | hs
  · rw [hs]
    simp only
    unfold metaNumStats
    split
    · rename_i heq; rw [heq] at h2; simp at h2
    · rw [hd]
  · rw [hs]
    simp only
    rw [hd]
    cases p
    simp_all

theorem metaSteps_combined (parseDate : Str → Option τ) (p : MetaParser τ) (ls : List Str)
    (h : ∀ l ∈ ls, l.head? = some 58 ∧ (splitByte 9 l).length = 2) (hs : ls = [] ∨ p.state = .numStats ∨ p.state = .diff) :
    ∃ st, metaSteps parseDate p ls = .ok { p with state := st } := by
  induction ls generalizing p with
  | nil => exact ⟨p.state, rfl⟩
  | cons l ls ih =>
    rcases hs with hs | hs
    · cases hs
    · simp only [metaSteps, metaParse_combined parseDate p l (h l (by simp)) hs]
      obtain ⟨st, hst⟩ := ih { p with state := .diff } (fun x hx => h x (by simp [hx])) (Or.inr (Or.inr rfl))
      exact ⟨st, hst⟩

end Ripsrc
