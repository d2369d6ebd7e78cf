import Verif.Lib.CommitMeta
/-!
# C38, C39: the commit metadata parser
-/
namespace Ripsrc
open Spec

variable {τ : Type}

/-- The commit after its header lines. -/
def headerCommit (c : CommitRec τ) (n : Nat) : MetaCommit τ :=
  { sha := c.sha, ordinal := n, parents := c.parents, committerEmail := dropCR c.committerEmail, committerName := dropCR c.committerName,
    authorEmail := dropCR c.authorEmail, authorName := dropCR c.authorName, date := some c.date, message := dropCR c.message }

theorem metaSteps_cons {parseDate : Str → Option τ} {p p' : MetaParser τ} {l : Str} {ls : List Str}
    (h : metaParse parseDate p l = .ok p') : metaSteps parseDate p (l :: ls) = metaSteps parseDate p' ls := by
  simp only [metaSteps, h]

theorem metaParse_header (parseDate : Str → Option τ) (p : MetaParser τ) (l : Str) (hl : l ≠ []) (hs : p.state = .header) :
    metaParse parseDate p l = metaHeader parseDate p l := by
  unfold metaParse
  rw [if_neg hl, hs]

theorem sw_false {a r pfx : Str} (i : Nat) (x y : UInt8) (ha : a[i]? = some x) (hp : pfx[i]? = some y) (h : x ≠ y) :
    startsWith (a ++ r) pfx = false := startsWith_diff i x y ha hp h

theorem hdr_parents (parseDate : Str → Option τ) (p : MetaParser τ) (c : MetaCommit τ) (hc : p.commit = some c)
    (hs : p.state = .header) (hpar : c.parents = []) (ps : List Str) (hps : ∀ x ∈ ps, x ≠ [] ∧ Token x) :
    metaParse parseDate p (b!"!Parents: " ++ joinWith b!" " ps) = .ok { p with commit := some { c with parents := ps } } := by
  rw [metaParse_header _ _ _ (by simp) hs]
  unfold metaHeader
  rw [sw_false 1 80 83 rfl rfl (by decide), sw_false 1 80 68 (pfx := b!"!Date: ") rfl rfl (by decide),
    sw_false 1 80 65 (pfx := b!"!Author: ") rfl rfl (by decide), sw_false 1 80 65 (pfx := b!"!AName: ") rfl rfl (by decide),
    sw_false 1 80 67 (pfx := b!"!Committer: ") rfl rfl (by decide), sw_false 1 80 67 (pfx := b!"!CName: ") rfl rfl (by decide),
    sw_false 1 80 77 (pfx := b!"!Message: ") rfl rfl (by decide)]
  have hd : (b!"!Parents: " ++ joinWith b!" " ps).drop 10 = joinWith b!" " ps := rfl
  simp only [startsWith_append, hd, true_and, Bool.false_eq_true, if_false, bind, Except.bind]
  cases ps with
  | nil =>
    rw [if_neg (by simp [joinWith])]
    have : { c with parents := [] } = c := by rw [← hpar]
    rw [this, ← hc]
  | cons x ps =>
    have hne : joinWith b!" " (x :: ps) ≠ [] := by
      have hx := (hps x (by simp)).1
      cases ps with
      | nil => simpa [joinWith] using hx
      | cons y ps => simp [joinWith]
    rw [if_pos hne]
    simp only [needCommit, hc]
    rw [splitByte_join _ _ (by simp) (fun l hl => token_not_mem (hps l hl).2 32 (by decide))]

theorem hdr_committer (parseDate : Str → Option τ) (p : MetaParser τ) (c : MetaCommit τ) (hc : p.commit = some c)
    (hs : p.state = .header) (v : Str) :
    metaParse parseDate p (b!"!Committer: " ++ v) = .ok { p with commit := some { c with committerEmail := v } } := by
  rw [metaParse_header _ _ _ (by simp) hs]
  unfold metaHeader
  rw [sw_false 1 67 83 (pfx := b!"!SHA: ") rfl rfl (by decide), sw_false 1 67 80 (pfx := b!"!Parents: ") rfl rfl (by decide),
    sw_false 1 67 68 (pfx := b!"!Date: ") rfl rfl (by decide),
    sw_false 1 67 65 (pfx := b!"!Author: ") rfl rfl (by decide), sw_false 1 67 65 (pfx := b!"!AName: ") rfl rfl (by decide),
    startsWith_append]
  simp [needCommit, hc, bind, Except.bind]

theorem hdr_cname (parseDate : Str → Option τ) (p : MetaParser τ) (c : MetaCommit τ) (hc : p.commit = some c)
    (hs : p.state = .header) (v : Str) :
    metaParse parseDate p (b!"!CName: " ++ v) = .ok { p with commit := some { c with committerName := v } } := by
  rw [metaParse_header _ _ _ (by simp) hs]
  unfold metaHeader
  rw [sw_false 1 67 83 (pfx := b!"!SHA: ") rfl rfl (by decide), sw_false 1 67 80 (pfx := b!"!Parents: ") rfl rfl (by decide),
    sw_false 1 67 68 (pfx := b!"!Date: ") rfl rfl (by decide),
    sw_false 1 67 65 (pfx := b!"!Author: ") rfl rfl (by decide), sw_false 1 67 65 (pfx := b!"!AName: ") rfl rfl (by decide),
    sw_false 2 78 111 (pfx := b!"!Committer: ") rfl rfl (by decide), startsWith_append]
  simp [needCommit, hc, bind, Except.bind]

theorem hdr_author (parseDate : Str → Option τ) (p : MetaParser τ) (c : MetaCommit τ) (hc : p.commit = some c)
    (hs : p.state = .header) (v : Str) :
    metaParse parseDate p (b!"!Author: " ++ v) = .ok { p with commit := some { c with authorEmail := v } } := by
  rw [metaParse_header _ _ _ (by simp) hs]
  unfold metaHeader
  rw [sw_false 1 65 83 (pfx := b!"!SHA: ") rfl rfl (by decide), sw_false 1 65 80 (pfx := b!"!Parents: ") rfl rfl (by decide),
    sw_false 1 65 68 (pfx := b!"!Date: ") rfl rfl (by decide), startsWith_append]
  simp [needCommit, hc, bind, Except.bind]

theorem hdr_aname (parseDate : Str → Option τ) (p : MetaParser τ) (c : MetaCommit τ) (hc : p.commit = some c)
    (hs : p.state = .header) (v : Str) :
    metaParse parseDate p (b!"!AName: " ++ v) = .ok { p with commit := some { c with authorName := v } } := by
  rw [metaParse_header _ _ _ (by simp) hs]
  unfold metaHeader
  rw [sw_false 1 65 83 (pfx := b!"!SHA: ") rfl rfl (by decide), sw_false 1 65 80 (pfx := b!"!Parents: ") rfl rfl (by decide),
    sw_false 1 65 68 (pfx := b!"!Date: ") rfl rfl (by decide), sw_false 2 78 117 (pfx := b!"!Author: ") rfl rfl (by decide),
    startsWith_append]
  simp [needCommit, hc, bind, Except.bind]

theorem Spec.Graphic.token {v : Str} (h : Graphic v) : Token v := fun b hb => (h b hb).1

theorem token_trim {v : Str} (hv : Graphic v) : trimSpace v = v := by
  refine trimSpace_trimmed (ascii_trimmed (fun b hb => ?_))
  have := hv b hb
  refine ⟨?_, UInt8.lt_trans this.2 (by decide : (127 : UInt8) < 128)⟩
  simp only [isSpaceByte, Bool.or_eq_false_iff, decide_eq_false_iff_not]
  refine ⟨⟨⟨⟨⟨?_, ?_⟩, ?_⟩, ?_⟩, ?_⟩, ?_⟩ <;> (rintro rfl; revert this; decide)

theorem hdr_date (parseDate : Str → Option τ) (p : MetaParser τ) (c : MetaCommit τ) (hc : p.commit = some c)
    (hs : p.state = .header) (v : Str) (t : τ) (ht : parseDate v = some t) (hv : v ≠ [] ∧ Graphic v) :
    metaParse parseDate p (b!"!Date: " ++ v) = .ok { p with commit := some { c with date := some t } } := by
  rw [metaParse_header _ _ _ (by simp) hs]
  unfold metaHeader
  have hd : (b!"!Date: " ++ v).drop 7 = v := rfl
  have htr : trimSpace v = v := token_trim hv.2
  rw [sw_false 1 68 83 (pfx := b!"!SHA: ") rfl rfl (by decide), sw_false 1 68 80 (pfx := b!"!Parents: ") rfl rfl (by decide),
    startsWith_append, hd, htr, ht]
  simp [needCommit, hc, bind, Except.bind]

theorem hdr_message (parseDate : Str → Option τ) (p : MetaParser τ) (c : MetaCommit τ) (hc : p.commit = some c)
    (hs : p.state = .header) (v : Str) :
    metaParse parseDate p (b!"!Message: " ++ v) = .ok { p with commit := some { c with message := v }, state := .files } := by
  rw [metaParse_header _ _ _ (by simp) hs]
  unfold metaHeader
  rw [sw_false 1 77 83 (pfx := b!"!SHA: ") rfl rfl (by decide), sw_false 1 77 80 (pfx := b!"!Parents: ") rfl rfl (by decide),
    sw_false 1 77 68 (pfx := b!"!Date: ") rfl rfl (by decide), sw_false 1 77 65 (pfx := b!"!Author: ") rfl rfl (by decide),
    sw_false 1 77 65 (pfx := b!"!AName: ") rfl rfl (by decide), sw_false 1 77 67 (pfx := b!"!Committer: ") rfl rfl (by decide),
    sw_false 1 77 67 (pfx := b!"!CName: ") rfl rfl (by decide), startsWith_append]
  simp [needCommit, hc, bind, Except.bind]

theorem token_dropCR {s : Str} (h : Token s) : dropCR s = s := dropCR_of_not_mem (token_not_mem h 13 (by decide))

theorem hdr_dropCR (pre v : Str) (h : dropCR pre = pre) : dropCR (pre ++ v) = pre ++ dropCR v := dropCR_append _ _ (Or.inr h)

theorem token_joinWith {ps : List Str} (hps : ∀ x ∈ ps, x ≠ [] ∧ Token x) : (13 : UInt8) ∉ joinWith b!" " ps := by
  induction ps with
  | nil => simp [joinWith]
  | cons x ps ih =>
    have hx := token_not_mem (hps x (by simp)).2 13 (by decide)
    have := ih (fun y hy => hps y (by simp [hy]))
    cases ps with
    | nil => simpa [joinWith] using hx
    | cons y ps =>
      simp only [joinWith, List.mem_append, not_or]
      exact ⟨⟨hx, by decide⟩, this⟩

/-- The header lines as the scanner returns them. -/
theorem headLines_dropCR {parseDate : Str → Option τ} {c : CommitRec τ} (h : c.Ok parseDate) : c.headLines.map dropCR =
    [b!"!SHA: " ++ c.sha, b!"!Parents: " ++ joinWith b!" " c.parents, b!"!Committer: " ++ dropCR c.committerEmail,
     b!"!CName: " ++ dropCR c.committerName, b!"!Author: " ++ dropCR c.authorEmail, b!"!AName: " ++ dropCR c.authorName,
     b!"!Date: " ++ c.dateText, b!"!Message: " ++ dropCR c.message] := by
  unfold CommitRec.headLines
  simp only [List.map_cons, List.map_nil]
  rw [hdr_dropCR b!"!SHA: " _ (by decide), hdr_dropCR b!"!Parents: " _ (by decide), hdr_dropCR b!"!Committer: " _ (by decide),
    hdr_dropCR b!"!CName: " _ (by decide), hdr_dropCR b!"!Author: " _ (by decide), hdr_dropCR b!"!AName: " _ (by decide),
    hdr_dropCR b!"!Date: " _ (by decide), hdr_dropCR b!"!Message: " _ (by decide), token_dropCR h.sha.2,
    token_dropCR h.date.2.2.token, dropCR_of_not_mem (token_joinWith h.parents)]

theorem metaSteps_head {parseDate : Str → Option τ} {c : CommitRec τ} (h : c.Ok parseDate) (p : MetaParser τ) :
    metaSteps parseDate p (c.headLines.map dropCR) = .ok
      { commit := some (headerCommit c (p.ordinal + 1)), ordinal := p.ordinal + 1, state := .files, sent := p.flush } := by
  rw [headLines_dropCR h]
  rw [metaSteps_cons (metaParse_sha parseDate p c.sha h.sha)]
  rw [metaSteps_cons (hdr_parents parseDate _ _ rfl rfl rfl c.parents h.parents)]
  rw [metaSteps_cons (hdr_committer parseDate _ _ rfl rfl _)]
  rw [metaSteps_cons (hdr_cname parseDate _ _ rfl rfl _)]
  rw [metaSteps_cons (hdr_author parseDate _ _ rfl rfl _)]
  rw [metaSteps_cons (hdr_aname parseDate _ _ rfl rfl _)]
  rw [metaSteps_cons (hdr_date parseDate _ _ rfl rfl _ _ h.date.1 h.date.2)]
  rw [metaSteps_cons (hdr_message parseDate _ _ rfl rfl _)]
  rfl

theorem printed_dropCR {s : Str} (h : Printable s) : (13 : UInt8) ∉ s := printed_not_mem h 13 (by decide)

theorem raw_line_noCtl {r : RawRec} (h : r.Ok) (b : UInt8) (hb : b < 32) (hb9 : b ≠ 9) : b ∉ r.line := by
  have tk : ∀ s, Token s → b ∉ s := fun s hs => token_not_mem hs b (by
    rw [UInt8.le_iff_toNat_le]; rw [UInt8.lt_iff_toNat_lt] at hb; exact Nat.le_of_lt hb)
  have ne : ∀ c : UInt8, 32 ≤ c → b ≠ c := by
    rintro c hc rfl
    exact absurd hb (by rw [UInt8.not_lt]; exact hc)
  obtain ⟨h1, h2, h3, h4⟩ := h.modes
  have hp := printed_not_mem h.path.1 b hb
  have hsrc := h.src
  unfold RawRec.line RawRec.tail
  cases hk : r.kind with
  | added => simp [tk _ h1, tk _ h2, tk _ h3, tk _ h4, hp, hb9, ne 58 (by decide), ne 32 (by decide), ne 65 (by decide)]
  | deleted => simp [tk _ h1, tk _ h2, tk _ h3, tk _ h4, hp, hb9, ne 58 (by decide), ne 32 (by decide), ne 68 (by decide)]
  | modified => simp [tk _ h1, tk _ h2, tk _ h3, tk _ h4, hp, hb9, ne 58 (by decide), ne 32 (by decide), ne 77 (by decide)]
  | typeChanged => simp [tk _ h1, tk _ h2, tk _ h3, tk _ h4, hp, hb9, ne 58 (by decide), ne 32 (by decide), ne 84 (by decide)]
  | renamed src score =>
    rw [hk] at hsrc
    have hs := printed_not_mem hsrc.1.1 b hb
    simp [tk _ h1, tk _ h2, tk _ h3, tk _ h4, hp, hb9, ne 58 (by decide), ne 32 (by decide), ne 82 (by decide), hs, tk _ hsrc.2.1]
  | copied src score =>
    rw [hk] at hsrc
    have hs := printed_not_mem hsrc.1.1 b hb
    simp [tk _ h1, tk _ h2, tk _ h3, tk _ h4, hp, hb9, ne 58 (by decide), ne 32 (by decide), ne 67 (by decide), hs, tk _ hsrc.2.1]

theorem stat_line_noCtl {s : StatRec} (h : s.Ok) (b : UInt8) (hb : b < 32) (hb9 : b ≠ 9) : b ∉ s.line := by
  have hp := printed_not_mem h.printed b hb
  have hd : ∀ n, b ∉ itoa n := fun n => itoa_not_mem n b (by
    rintro ⟨hc, _⟩
    rw [UInt8.lt_iff_toNat_lt] at hb
    rw [UInt8.le_iff_toNat_le] at hc
    simp at hb hc
    omega)
  have ne : b ≠ 45 := by rintro rfl; exact absurd hb (by decide)
  cases hcnt : s.counts with
  | none => simp only [StatRec.line, hcnt]; simp [hp, hb9, ne]
  | some ad => obtain ⟨a, d⟩ := ad; simp only [StatRec.line, hcnt]; simp [hp, hb9, hd]

theorem rest_dropCR {parseDate : Str → Option τ} {c : CommitRec τ} (h : c.Ok parseDate) :
    c.lines.map dropCR = c.headLines.map dropCR ++ (List.replicate c.blank1 [] ++ (c.raws.map RawRec.line ++
      (c.stats.map StatRec.line ++ (c.combined ++ List.replicate c.blank2 [])))) := by
  unfold CommitRec.lines
  simp only [List.map_append, List.map_replicate]
  have e0 : dropCR [] = [] := rfl
  have e1 : (c.raws.map RawRec.line).map dropCR = c.raws.map RawRec.line := by
    rw [List.map_map]
    exact List.map_congr_left (fun r hr => dropCR_of_not_mem (raw_line_noCtl (h.raws r hr) 13 (by decide) (by decide)))
  have e2 : (c.stats.map StatRec.line).map dropCR = c.stats.map StatRec.line := by
    rw [List.map_map]
    exact List.map_congr_left (fun r hr => dropCR_of_not_mem (stat_line_noCtl (h.stats r hr) 13 (by decide) (by decide)))
  have e3 : c.combined.map dropCR = c.combined := by
    conv => rhs; rw [← List.map_id c.combined]
    exact List.map_congr_left (fun l hl => dropCR_of_not_mem (h.combined l hl).2.1)
  rw [e0, e1, e2, e3]

/-- The files of a commit, as the parser builds them. -/
def builtFiles (c : CommitRec τ) : GoMap Str CommitFile := c.stats.foldl statPut (cmPutAll [] c.entries)

theorem metaSteps_commit {parseDate : Str → Option τ} {c : CommitRec τ} (h : c.Ok parseDate) (p : MetaParser τ) :
    ∃ st, metaSteps parseDate p (c.lines.map dropCR) = .ok
      { commit := some { headerCommit c (p.ordinal + 1) with files := builtFiles c }, ordinal := p.ordinal + 1, state := st,
        sent := p.flush } := by
  rw [rest_dropCR h, metaSteps_append (metaSteps_head h p), metaSteps_append (metaSteps_blank _ _ _),
    metaSteps_append (metaSteps_raws parseDate _ _ c.raws h.raws rfl rfl),
    metaSteps_append (metaSteps_stats parseDate _ _ c.stats h.stats rfl (Or.inl rfl))]
  obtain ⟨st, hst⟩ := metaSteps_combined parseDate
    { commit := some { headerCommit c (p.ordinal + 1) with files := builtFiles c }, ordinal := p.ordinal + 1,
      state := if c.stats = [] then .files else .numStats, sent := p.flush } c.combined
    (fun l hl => (h.combined l hl).2.2) (by
      by_cases hcomb : c.combined = []
      · exact Or.inl hcomb
      · right; left; simp [h.combinedStats hcomb])
  refine ⟨st, ?_⟩
  have := metaSteps_append (b := List.replicate c.blank2 []) hst
  rw [metaSteps_blank] at this
  exact this

theorem cmPutAll_get (es : List (Str × CommitFile)) (m : GoMap Str CommitFile) (h : (es.map Prod.fst).Nodup) (p : Str) :
    (cmPutAll m es).get p = match (es.find? (fun e => decide (e.1 = p))).map Prod.snd with
      | some f => some f
      | none => m.get p := by
  induction es generalizing m with
  | nil => rfl
  | cons e es ih =>
    simp only [List.map_cons, List.nodup_cons] at h
    have := ih (m.set e.1 e.2) h.2
    simp only [cmPutAll, List.foldl_cons] at this ⊢
    rw [this, List.find?_cons]
    by_cases he : e.1 = p
    · have hn : es.find? (fun e => decide (e.1 = p)) = none := by
        rw [List.find?_eq_none]
        intro x hx hc
        apply h.1
        rw [he]
        exact List.mem_map.2 ⟨x, hx, by simpa using hc⟩
      simp [he, hn]
    · simp only [he, decide_false]
      rw [GoMap.get_set_ne _ _ he]

theorem statFold_get (ss : List StatRec) (m : GoMap Str CommitFile) (h : (ss.map StatRec.path).Nodup) (p : Str) :
    (ss.foldl statPut m).get p = match ss.find? (fun s => decide (s.path = p)) with
      | some s => some (s.enter ((m.get p).getD { filename := p, status := .modified }))
      | none => m.get p := by
  induction ss generalizing m with
  | nil => rfl
  | cons s ss ih =>
    simp only [List.map_cons, List.nodup_cons] at h
    simp only [List.foldl_cons]
    rw [ih _ h.2, List.find?_cons]
    by_cases he : s.path = p
    · have hn : ss.find? (fun e => decide (e.path = p)) = none := by
        rw [List.find?_eq_none]
        intro x hx hc
        apply h.1
        rw [he]
        exact List.mem_map.2 ⟨x, hx, by simpa using hc⟩
      simp [he, hn, statPut]
    · simp only [he, decide_false, statPut]
      rw [GoMap.get_set_ne _ _ he]

theorem builtFiles_get {parseDate : Str → Option τ} {c : CommitRec τ} (h : c.Ok parseDate) (p : Str) :
    (builtFiles c).get p = c.file p := by
  unfold builtFiles CommitRec.file
  rw [statFold_get _ _ h.distinct.2, cmPutAll_get _ _ h.distinct.1]
  have : (match (c.entries.find? (fun e => decide (e.1 = p))).map Prod.snd with
      | some f => some f
      | none => GoMap.get ([] : GoMap Str CommitFile) p) = (c.entries.find? (fun e => decide (e.1 = p))).map Prod.snd := by
    cases (c.entries.find? (fun e => decide (e.1 = p))).map Prod.snd <;> rfl
  rw [this]
  rfl

theorem builtFiles_wf (c : CommitRec τ) : (builtFiles c).WF := by
  have h1 : ∀ (es : List (Str × CommitFile)) (m : GoMap Str CommitFile), m.WF → (cmPutAll m es).WF := by
    intro es
    induction es with
    | nil => intro m hm; exact hm
    | cons e es ih => intro m hm; exact ih _ (GoMap.wf_set hm _ _)
  have h2 : ∀ (ss : List StatRec) (m : GoMap Str CommitFile), m.WF → (ss.foldl statPut m).WF := by
    intro ss
    induction ss with
    | nil => intro m hm; exact hm
    | cons e es ih => intro m hm; exact ih _ (GoMap.wf_set hm _ _)
  exact h2 _ _ (h1 _ _ GoMap.wf_nil)

theorem reported_built {parseDate : Str → Option τ} {c : CommitRec τ} (h : c.Ok parseDate) (n : Nat) :
    Reported c n { headerCommit c n with files := builtFiles c } :=
  ⟨rfl, rfl, rfl, rfl, rfl, rfl, rfl, rfl, rfl, builtFiles_get h, builtFiles_wf c⟩

/-- The commits as the parser builds them, numbered from `n`. -/
def builtCommits : Nat → List (CommitRec τ) → List (MetaCommit τ)
  | _, [] => []
  | n, c :: cs => { headerCommit c n with files := builtFiles c } :: builtCommits (n + 1) cs

theorem metaSteps_commits {parseDate : Str → Option τ} (cs : List (CommitRec τ)) (h : ∀ c ∈ cs, c.Ok parseDate) (p : MetaParser τ) :
    ∃ p', metaSteps parseDate p ((cs.flatMap CommitRec.lines).map dropCR) = .ok p' ∧
      p'.flush = p.flush ++ builtCommits (p.ordinal + 1) cs ∧ p'.ordinal = p.ordinal + cs.length := by
  induction cs generalizing p with
  | nil => exact ⟨p, rfl, by simp [builtCommits], rfl⟩
  | cons c cs ih =>
    obtain ⟨st, hst⟩ := metaSteps_commit (h c (by simp)) p
    obtain ⟨p', h1, h2, h3⟩ := ih (fun x hx => h x (by simp [hx]))
      { commit := some { headerCommit c (p.ordinal + 1) with files := builtFiles c }, ordinal := p.ordinal + 1, state := st, sent := p.flush }
    refine ⟨p', ?_, ?_, ?_⟩
    · simp only [List.flatMap_cons, List.map_append]
      rw [metaSteps_append hst, h1]
    · rw [h2]
      have hsha : (headerCommit c (p.ordinal + 1)).sha ≠ [] := (h c (by simp)).sha.1
      simp [MetaParser.flush, hsha, builtCommits]
    · rw [h3]; simp; omega

theorem metaLoop_nil (parseDate : Str → Option τ) (p : MetaParser τ) : metaLoop parseDate p [] = (p.flush, none) := rfl

theorem commit_lines_noNL {parseDate : Str → Option τ} {c : CommitRec τ} (h : c.Ok parseDate) : ∀ l ∈ c.lines, NoNL l := by
  intro l hl
  have tkn : ∀ s, Token s → NoNL s := fun s hs => token_not_mem hs 10 (by decide)
  have app : ∀ a b : Str, NoNL a → NoNL b → NoNL (a ++ b) := by
    intro a b ha hb hc
    rcases List.mem_append.1 hc with hc | hc
    · exact ha hc
    · exact hb hc
  obtain ⟨t1, t2, t3, t4, t5⟩ := h.text
  simp only [CommitRec.lines, List.mem_append] at hl
  rcases hl with hl | hl | hl | hl | hl | hl
  · simp only [CommitRec.headLines, List.mem_cons, List.not_mem_nil, or_false] at hl
    rcases hl with rfl | rfl | rfl | rfl | rfl | rfl | rfl | rfl
    · exact app _ _ (by decide) (tkn _ h.sha.2)
    · refine app _ _ (by decide) ?_
      apply not_mem_joinWith
      · decide
      · intro l hl; exact tkn _ (h.parents l hl).2
    · exact app _ _ (by decide) t1
    · exact app _ _ (by decide) t2
    · exact app _ _ (by decide) t3
    · exact app _ _ (by decide) t4
    · exact app _ _ (by decide) (tkn _ h.date.2.2.token)
    · exact app _ _ (by decide) t5
  · rw [(List.mem_replicate.1 hl).2]; decide
  · obtain ⟨r, hr, rfl⟩ := List.mem_map.1 hl
    exact raw_line_noCtl (h.raws r hr) 10 (by decide) (by decide)
  · obtain ⟨r, hr, rfl⟩ := List.mem_map.1 hl
    exact stat_line_noCtl (h.stats r hr) 10 (by decide) (by decide)
  · exact (h.combined l hl).1
  · rw [(List.mem_replicate.1 hl).2]; decide

theorem builtCommits_length (n : Nat) (cs : List (CommitRec τ)) : (builtCommits n cs).length = cs.length := by
  induction cs generalizing n with
  | nil => rfl
  | cons c cs ih => simp [builtCommits, ih]

theorem builtCommits_get {parseDate : Str → Option τ} (n : Nat) (cs : List (CommitRec τ)) (h : ∀ c ∈ cs, c.Ok parseDate) (i : Nat) (c : CommitRec τ)
    (m : MetaCommit τ) (hc : cs[i]? = some c) (hm : (builtCommits n cs)[i]? = some m) : Reported c (n + i) m := by
  induction cs generalizing n i with
  | nil => simp at hc
  | cons x cs ih =>
    cases i with
    | zero =>
      simp only [List.getElem?_cons_zero, builtCommits, Option.some.injEq] at hc hm
      subst hc hm
      exact reported_built (h x (by simp)) n
    | succ i =>
      simp only [List.getElem?_cons_succ, builtCommits] at hc hm
      have := ih (n + 1) (fun y hy => h y (by simp [hy])) i hc hm
      rw [show n + (i + 1) = n + 1 + i by omega]
      exact this

theorem metaRun_eq {parseDate : Str → Option τ} (cs : List (CommitRec τ)) (h : ∀ c ∈ cs, c.Ok parseDate)
    (hlen : ∀ c ∈ cs, ∀ l ∈ c.lines, l.length < 65536) :
    metaRun parseDate (metaLogText cs) = (builtCommits 1 cs, none) := by
  unfold metaRun metaLogText
  rw [scan_unlines]
  · obtain ⟨p', h1, h2, _⟩ := metaSteps_commits cs h {}
    have := metaLoop_append (b := []) h1
    rw [List.append_nil, metaLoop_nil, h2] at this
    exact this
  · intro l hl
    obtain ⟨c, hc, hl⟩ := List.mem_flatMap.1 hl
    exact commit_lines_noNL (h c hc) l hl
  · intro l hl
    obtain ⟨c, hc, hl⟩ := List.mem_flatMap.1 hl
    exact hlen c hc l hl

/-- **C38.** For every list of commits in the log format whose lines are shorter than 64 KiB, the parser emits the same commits in
the same order, without error: hash, parents, author, committer, date, message, ordinals 1..n, and for every path exactly the
reported file with status, rename or copy source, additions, deletions and binary flag. -/
theorem C38_commit_parser {parseDate : Str → Option τ} (cs : List (CommitRec τ)) (h : ∀ c ∈ cs, c.Ok parseDate)
    (hlen : ∀ c ∈ cs, ∀ l ∈ c.lines, l.length < 65536) :
    ∃ ms, metaRun parseDate (metaLogText cs) = (ms, none) ∧ ms.length = cs.length ∧
      ∀ (i : Nat) (c : CommitRec τ) (m : MetaCommit τ), cs[i]? = some c → ms[i]? = some m → Reported c (i + 1) m := by
  refine ⟨builtCommits 1 cs, metaRun_eq cs h hlen, builtCommits_length _ _, fun i c m hc hm => ?_⟩
  have := builtCommits_get 1 cs h i c m hc hm
  rwa [Nat.add_comm] at this

/-- **C39.** Whatever follows a line of 64 KiB or more is ignored, and no error is reported for it: the result is the one for
the text before that line. -/
theorem C39_long_line_ends_log (parseDate : Str → Option τ) (before after : List Str) (l : Str) (hb : ∀ x ∈ before, NoNL x)
    (ha : ∀ x ∈ after, NoNL x) (hl : NoNL l) (hlong : 65536 ≤ l.length) (hshort : ∀ x ∈ before, x.length < 65536) :
    metaRun parseDate (unlines (before ++ l :: after)) = metaRun parseDate (unlines before) := by
  unfold metaRun metaMaxLine
  rw [scan_unlines _ _ hb hshort]
  unfold scan
  rw [rawLines_unlines]
  · rw [scanRaw_tooLong _ _ _ _ hshort hlong]
  · intro x hx
    rcases List.mem_append.1 hx with hx | hx
    · exact hb x hx
    · rcases List.mem_cons.1 hx with rfl | hx
      · exact hl
      · exact ha x hx

/-- **C39.** A commit with a subject of 64 KiB or more hides every commit after it: only it and the commits before it are reported,
without an error. -/
theorem C39_commits_lost {parseDate : Str → Option τ} (cs rest : List (CommitRec τ)) (c : CommitRec τ) (h : ∀ x ∈ cs, x.Ok parseDate)
    (hr : ∀ x ∈ rest, x.Ok parseDate) (hc : c.Ok parseDate) (hlen : ∀ x ∈ cs, ∀ l ∈ x.lines, l.length < 65536)
    (hhead : ∀ l ∈ c.headLines.dropLast, l.length < 65536) (hlong : 65536 ≤ c.message.length) :
    ∃ ms, metaRun parseDate (metaLogText (cs ++ c :: rest)) = (ms, none) ∧ ms.length = cs.length + 1 := by
  have hsplit : (cs ++ c :: rest).flatMap CommitRec.lines =
      (cs.flatMap CommitRec.lines ++ c.headLines.dropLast) ++ (b!"!Message: " ++ c.message) ::
        (List.replicate c.blank1 [] ++ (c.raws.map RawRec.line ++ (c.stats.map StatRec.line ++
          (c.combined ++ List.replicate c.blank2 []))) ++ rest.flatMap CommitRec.lines) := by
    simp [CommitRec.lines, CommitRec.headLines]
  have hall : ∀ x ∈ (cs ++ c :: rest).flatMap CommitRec.lines, NoNL x := by
    intro x hx
    obtain ⟨y, hy, hxy⟩ := List.mem_flatMap.1 hx
    simp only [List.mem_append, List.mem_cons] at hy
    rcases hy with hy | rfl | hy
    · exact commit_lines_noNL (h y hy) x hxy
    · exact commit_lines_noNL hc x hxy
    · exact commit_lines_noNL (hr y hy) x hxy
  have hshort : ∀ x ∈ cs.flatMap CommitRec.lines ++ c.headLines.dropLast, x.length < 65536 := by
    intro x hx
    rcases List.mem_append.1 hx with hx | hx
    · obtain ⟨y, hy, hx⟩ := List.mem_flatMap.1 hx
      exact hlen y hy x hx
    · exact hhead x hx
  have hpre : ∀ x ∈ cs.flatMap CommitRec.lines ++ c.headLines.dropLast, NoNL x := fun x hx =>
    hall x (by rw [hsplit]; exact List.mem_append_left _ hx)
  unfold metaLogText
  rw [hsplit, C39_long_line_ends_log parseDate _ _ _ hpre
    (fun x hx => hall x (by rw [hsplit]; exact List.mem_append_right _ (List.mem_cons_of_mem _ hx)))
    (hall _ (by rw [hsplit]; exact List.mem_append_right _ (List.mem_cons_self ..)))
    (by simp only [List.length_append, List.length_cons]; omega) hshort]
  unfold metaRun metaMaxLine
  rw [scan_unlines _ _ hpre hshort, List.map_append]
  obtain ⟨p', h1, h2, _⟩ := metaSteps_commits cs h {}
  rw [metaLoop_append h1]
  have h3 : metaSteps parseDate p' (c.headLines.dropLast.map dropCR) = .ok
      { commit := some { headerCommit c (p'.ordinal + 1) with message := [] }, ordinal := p'.ordinal + 1, state := .header, sent := p'.flush } := by
    rw [List.map_dropLast, headLines_dropCR hc]
    simp only [List.dropLast_cons_cons, List.dropLast_singleton]
    rw [metaSteps_cons (metaParse_sha parseDate p' c.sha hc.sha)]
    rw [metaSteps_cons (hdr_parents parseDate _ _ rfl rfl rfl c.parents hc.parents)]
    rw [metaSteps_cons (hdr_committer parseDate _ _ rfl rfl _)]
    rw [metaSteps_cons (hdr_cname parseDate _ _ rfl rfl _)]
    rw [metaSteps_cons (hdr_author parseDate _ _ rfl rfl _)]
    rw [metaSteps_cons (hdr_aname parseDate _ _ rfl rfl _)]
    rw [metaSteps_cons (hdr_date parseDate _ _ rfl rfl _ _ hc.date.1 hc.date.2)]
    rfl
  have h4 := metaLoop_append (b := []) h3
  rw [List.append_nil] at h4
  rw [h4, metaLoop_nil]
  refine ⟨_, rfl, ?_⟩
  have hsha : c.sha ≠ [] := hc.sha.1
  have hf : ({} : MetaParser τ).flush = [] := rfl
  have : p'.flush.length = cs.length := by rw [h2, hf]; simp [builtCommits_length]
  have he : ∀ (q : MetaParser τ) (d : MetaCommit τ), q.commit = some d → d.sha ≠ [] → q.flush = q.sent ++ [d] := by
    intro q d h1 h2
    simp [MetaParser.flush, h1, h2]
  rw [he _ _ rfl (by exact hsha)]
  simp [this]

/-- A commit that adds a binary file, renames a file into a directory, copies one and adds a symbolic link; then a merge. -/
def exMeta : List (CommitRec Nat) :=
  [{ sha := b!"c1", parents := [], committerEmail := b!"e@x", committerName := b!"C N", authorEmail := b!"a@x", authorName := b!"A N",
     dateText := b!"2018-11-27T21:55:36+01:00", date := 7, message := b!"!SHA: not a commit",
     raws := [⟨b!"000000", b!"100644", b!"0", b!"1", .added, b!"a b.png"⟩,
       ⟨b!"100644", b!"100644", b!"1", b!"2", .renamed b!"p/x.go" b!"090", b!"p/q/x.go"⟩,
       ⟨b!"100644", b!"100755", b!"1", b!"2", .copied b!"k" b!"100", b!"k2"⟩,
       ⟨b!"000000", b!"120000", b!"0", b!"3", .added, b!"link"⟩],
     stats := [{ path := b!"a b.png", name := b!"a b.png", counts := none },
       { src := some (pathOf [b!"p", b!"x.go"]), path := pathOf [b!"p", b!"q", b!"x.go"], name := braceRename [b!"p"] [] [b!"q"] [b!"x.go"], counts := some (3, 2) },
       { src := some b!"k", path := b!"k2", name := plainRename b!"k" b!"k2", counts := some (0, 0) },
       { path := b!"link", name := b!"link", counts := some (1, 0) }] },
   { sha := b!"c2", parents := [b!"c1", b!"c0"], committerEmail := b!"e@x", committerName := b!"C", authorEmail := b!"a@x", authorName := b!"A",
     dateText := b!"2018-11-27T21:55:36+01:00", date := 7, message := b!"merge", blank2 := 0,
     stats := [{ path := b!"m", name := b!"m", counts := some (1, 1) }],
     combined := [b!"::100644 100644 100644 1 2 3 MM\tm"] }]

def exDate : Str → Option Nat := fun s => if s = b!"2018-11-27T21:55:36+01:00" then some 7 else none

instance (s : Str) : Decidable (Token s) := inferInstanceAs (Decidable (∀ b ∈ s, 32 < b))
instance (s : Str) : Decidable (Graphic s) := inferInstanceAs (Decidable (∀ b ∈ s, 32 < b ∧ b < 127))
instance (s : Str) : Decidable (Printable s) := inferInstanceAs (Decidable (∀ b ∈ s, 32 ≤ b))
instance (s : Str) : Decidable (RawName s) := inferInstanceAs (Decidable (_ ∧ _))

theorem exMeta_ok : ∀ c ∈ exMeta, c.Ok exDate := by
  have hno : ∀ s : Str, (61 : UInt8) ∉ s → ¬ b!" => " <:+: s := fun s => not_infix_of_not_mem (by decide)
  intro c hc
  simp only [exMeta, List.mem_cons, List.not_mem_nil, or_false] at hc
  rcases hc with rfl | rfl
  · refine ⟨by decide, by decide, by decide, by decide, ?_, ?_, by decide, by decide, by decide⟩
    · intro r hr
      simp only [List.mem_cons, List.not_mem_nil, or_false] at hr
      rcases hr with rfl | rfl | rfl | rfl
      · exact ⟨by decide, by decide, trivial⟩
      · exact ⟨by decide, by decide, by decide, by decide, by decide⟩
      · exact ⟨by decide, by decide, by decide, by decide, by decide⟩
      · exact ⟨by decide, by decide, trivial⟩
    · intro s hs
      simp only [List.mem_cons, List.not_mem_nil, or_false] at hs
      rcases hs with rfl | rfl | rfl | rfl
      · exact ⟨.same _ (hno _ (by decide)), by decide, fun a d h => by cases h⟩
      · refine ⟨.brace [b!"p"] [] [b!"q"] [b!"x.go"] ⟨?_, Or.inl (by simp), by decide, by decide, hno _ (by decide)⟩, by decide,
          fun a d h => by cases h; decide⟩
        intro c hc
        simp only [List.append_nil, List.mem_append, List.mem_cons, List.not_mem_nil, or_false] at hc
        rcases hc with (rfl | rfl) | rfl <;> exact ⟨by decide, by decide, by decide, by decide⟩
      · exact ⟨.arrow _ _ (Or.inl (by decide)) (by unfold FirstAt; decide) (hno _ (by decide)), by decide, fun a d h => by cases h; decide⟩
      · exact ⟨.same _ (hno _ (by decide)), by decide, fun a d h => by cases h; decide⟩
  · refine ⟨by decide, by decide, by decide, by decide, by simp, ?_, by decide, by decide, by decide⟩
    intro s hs
    simp only [List.mem_cons, List.not_mem_nil, or_false] at hs
    subst hs
    exact ⟨.same _ (hno _ (by decide)), by decide, fun a d h => by cases h; decide⟩

example : (∀ c ∈ exMeta, ∀ l ∈ c.lines, l.length < 65536) ∧
    (exMeta.map (fun c => c.file b!"p/q/x.go")) =
      [some { filename := b!"p/q/x.go", status := .added, renamed := true, renamedFrom := b!"p/x.go", renamedTo := b!"p/q/x.go",
              additions := 3, deletions := 2 }, none] := by decide

/-- **C38, symbolic links and submodules.** They are skipped in the raw lines and then created again by their numstat line, so they are reported as `modified` in every commit, also in
the one that adds (or removes) them. -/
theorem C38_added_symlink_reported_modified {parseDate : Str → Option τ} (cs : List (CommitRec τ)) (h : ∀ c ∈ cs, c.Ok parseDate)
    (hlen : ∀ c ∈ cs, ∀ l ∈ c.lines, l.length < 65536) {i : Nat} {c : CommitRec τ} (hc : cs[i]? = some c) {p : Str} (hraw : ∀ r ∈ c.raws, r.path = p → ¬ r.Regular)
    (hsrc : ∀ r ∈ c.raws, ∀ score, r.kind ≠ .renamed p score) {s : StatRec} (hs : s ∈ c.stats) (hp : s.path = p) :
    ∃ ms, metaRun parseDate (metaLogText cs) = (ms, none) ∧ ∀ m, ms[i]? = some m → m.files.get p = some (s.enter { filename := p, status := .modified }) := by
  obtain ⟨ms, h1, _, h3⟩ := C38_commit_parser cs h hlen
  refine ⟨ms, h1, fun m hm => ?_⟩
  rw [(h3 i c m hc hm).files]
  have hbase : c.entries.find? (fun e => decide (e.1 = p)) = none := by
    rw [List.find?_eq_none]
    intro e he
    obtain ⟨r, hr, he⟩ := List.mem_flatMap.1 he
    unfold RawRec.entries at he
    simp only [decide_eq_true_eq]
    rintro rfl
    split at he
    · rename_i hreg
      cases hk : r.kind <;> rw [hk] at he <;> simp only [List.mem_cons, List.not_mem_nil, or_false] at he
      case renamed src score =>
        rcases he with rfl | rfl
        · exact hsrc r hr score hk
        · exact hraw r hr rfl hreg
      all_goals (subst he; exact hraw r hr rfl hreg)
    · cases he
  have hstat : c.stats.find? (fun x => decide (x.path = p)) = some s := by
    have hnd := (h c (List.mem_of_getElem? hc)).distinct.2
    revert hs hnd
    generalize c.stats = ss
    induction ss with
    | nil => intro hs; cases hs
    | cons x ss ih =>
      intro hs hnd
      rw [List.map_cons, List.nodup_cons] at hnd
      rcases List.mem_cons.1 hs with rfl | hs
      · rw [List.find?_cons_of_pos (by simpa using hp)]
      · rw [List.find?_cons_of_neg (by
          simp only [decide_eq_true_eq]
          intro hx
          exact hnd.1 (List.mem_map.2 ⟨s, hs, by rw [hp, hx]⟩))]
        exact ih hs hnd.2
  unfold CommitRec.file
  simp only [hbase, hstat, Option.map_none, Option.getD_none]

/-- The added link of the example. -/
example : ∃ ms, metaRun exDate (metaLogText exMeta) = (ms, none) ∧ ∀ m, ms[0]? = some m → m.files.get b!"link" = some { filename := b!"link", status := .modified, additions := 1 } :=
  C38_added_symlink_reported_modified (s := { path := b!"link", name := b!"link", counts := some (1, 0) }) exMeta exMeta_ok (by decide) (i := 0) rfl (by decide)
    (by intro r hr score hk
        simp only [List.mem_cons, List.not_mem_nil, or_false] at hr
        rcases hr with rfl | rfl | rfl | rfl <;> simp at hk) (by simp) rfl

/-- **C38, leading spaces.** Every added file whose path begins with a space is reported twice: without the space and without counts from the raw line, and with the space as `modified`
from the numstat line. -/
theorem C38_leading_space (parseDate : Str → Option τ) (p : MetaParser τ) (c : MetaCommit τ) (hc : p.commit = some c) (hs : p.state = .files) (name : Str)
    (hname : Printable name ∧ ¬ b!" => " <:+: b!" " ++ name) (hnew : GoMap.get c.files (b!" " ++ name) = none) (a d : Nat) (ha : a < 2 ^ 31 ∧ d < 2 ^ 31) (id : Str) (hid : Token id) :
    metaSteps parseDate p [b!":000000 100644 0 " ++ id ++ b!" A\t" ++ (b!" " ++ name), itoa a ++ b!"\t" ++ itoa d ++ b!"\t" ++ (b!" " ++ name)] =
      .ok { p with state := .numStats, commit := some { c with
        files := (c.files.set (name.dropWhile (· = 32)) { filename := name.dropWhile (· = 32), status := .added }).set (b!" " ++ name)
          { filename := b!" " ++ name, status := .modified, additions := a, deletions := d } } } := by
  have hpt : (9 : UInt8) ∉ b!" " ++ name := by
    have := printed_not_mem hname.1 9 (by decide)
    simp only [List.cons_append, List.nil_append, List.mem_cons, not_or]
    exact ⟨by decide, this⟩
  have h1 : metaParse parseDate p (b!":000000 100644 0 " ++ id ++ b!" A\t" ++ (b!" " ++ name)) =
      .ok { p with commit := some { c with files := c.files.set (name.dropWhile (· = 32)) { filename := name.dropWhile (· = 32), status := .added } } } := by
    have hl : b!":000000 100644 0 " ++ id ++ b!" A\t" ++ (b!" " ++ name) = b!":000000" ++ 32 :: (b!"100644" ++ 32 :: (b!"0" ++ 32 :: (id ++ 32 :: (b!"A" ++ 9 :: (b!" " ++ name))))) := by simp
    have hsp : splitByte 32 (b!":000000 100644 0 " ++ id ++ b!" A\t" ++ (b!" " ++ name)) = [b!":000000", b!"100644", b!"0", id] ++ splitByte 32 (b!"A" ++ 9 :: (b!" " ++ name)) := by
      rw [hl, splitByte_append _ _ _ (by decide), splitByte_append _ _ _ (by decide), splitByte_append _ _ _ (by decide), splitByte_append _ _ _ (token_not_mem hid 32 (by decide))]
      rfl
    have hraw : ∀ line, splitByte 32 line = [b!":000000", b!"100644", b!"0", id] ++ splitByte 32 (b!"A" ++ 9 :: (b!" " ++ name)) →
        metaRawLine c line = .ok { c with files := c.files.set (name.dropWhile (· = 32)) { filename := name.dropWhile (· = 32), status := .added } } := by
      intro line h
      unfold metaRawLine
      simp only [h, idx, List.cons_append, List.nil_append, List.getElem?_cons_succ, List.getElem?_cons_zero, bind, Except.bind]
      rw [if_neg (by simp), if_neg (by simp)]
      simp only [List.drop_succ_cons, List.drop_zero, joinWith_splitByte]
      have h9 := splitByte_append 9 b!"A" (b!" " ++ name) (by decide)
      rw [splitByte_last _ _ hpt] at h9
      simp only [List.cons_append, List.nil_append] at h9
      rw [h9]
      simp [toCommitStatus, trimLeftSpaces, MetaCommit.putFile]
    have hstart : startsWith (b!":000000 100644 0 " ++ id ++ b!" A\t" ++ (b!" " ++ name)) b!":" = true := by rw [hl, List.cons_append, startsWith_cons]; simp
    have hne : b!":000000 100644 0 " ++ id ++ b!" A\t" ++ (b!" " ++ name) ≠ [] := by simp
    revert hsp hstart hne
    generalize b!":000000 100644 0 " ++ id ++ b!" A\t" ++ (b!" " ++ name) = line
    intro hsp hstart hne
    unfold metaParse
    rw [if_neg hne, hs]
    simp only [metaFiles, hstart, if_true, needCommit, hc, bind, Except.bind, hraw line hsp, hs]
  rw [metaSteps_cons h1]
  have hst : StatRec.Ok { path := b!" " ++ name, name := b!" " ++ name, counts := some (a, d) } := by
    refine ⟨.same _ hname.2, ?_, fun x y h => by cases h; exact ha⟩
    intro b hb
    simp only [List.cons_append, List.nil_append, List.mem_cons] at hb
    rcases hb with rfl | hb
    · decide
    · exact hname.1 b hb
  have h2 := metaSteps_stats parseDate { p with commit := some { c with files := c.files.set (name.dropWhile (· = 32)) { filename := name.dropWhile (· = 32), status := .added } } } _
    [{ path := b!" " ++ name, name := b!" " ++ name, counts := some (a, d) }] (by simpa using hst) rfl (Or.inl hs)
  simp only [List.map_cons, List.map_nil, StatRec.line, List.foldl_cons, List.foldl_nil, statPut, StatRec.enter] at h2
  have hne : name.dropWhile (· = 32) ≠ b!" " ++ name := by
    intro he
    have := (List.dropWhile_sublist (fun b => decide (b = (32 : UInt8))) (l := name)).length_le
    have h' := congrArg List.length he
    simp only [List.length_append, List.length_cons, List.length_nil] at h'
    omega
  rw [GoMap.get_set_ne _ _ hne, hnew] at h2
  simpa using h2

example : ∃ (c' : MetaCommit Nat), metaSteps exDate { commit := some { sha := b!"c", ordinal := 1 }, state := .files } [b!":000000 100644 0 1 A\t x", b!"1\t0\t x"] =
      .ok { commit := some c', state := .numStats } ∧
    c'.files = [(b!"x", { filename := b!"x", status := .added }), (b!" x", { filename := b!" x", status := .modified, additions := 1 })] :=
  ⟨_, C38_leading_space exDate { commit := some { sha := b!"c", ordinal := 1 }, state := .files } _ rfl rfl b!"x"
    ⟨by decide, not_infix_of_not_mem (c := 61) (by decide) (by decide)⟩ rfl 1 0 (by decide) b!"1" (by decide), by decide⟩

/-! ### Errors and numbers -/

theorem hdr_bad_date (parseDate : Str → Option τ) (p : MetaParser τ) (c : MetaCommit τ) (hc : p.commit = some c)
    (hs : p.state = .header) (v : Str) (ht : parseDate v = none) (hv : v ≠ [] ∧ Graphic v) :
    metaParse parseDate p (b!"!Date: " ++ v) = .error (.error "error parsing commit") := by
  rw [metaParse_header _ _ _ (by simp) hs]
  unfold metaHeader
  have hd : (b!"!Date: " ++ v).drop 7 = v := by simp
  have htr : trimSpace v = v := token_trim hv.2
  rw [sw_false 1 68 83 (pfx := b!"!SHA: ") rfl rfl (by decide), sw_false 1 68 80 (pfx := b!"!Parents: ") rfl rfl (by decide),
    startsWith_append, hd, htr, ht]
  simp [needCommit, hc, bind, Except.bind]

/-- **C38.** A commit whose date cannot be read is not skipped: the commits before it have been delivered unchanged and in order,
then an error is returned, and nothing of that commit or of later ones is delivered. -/
theorem C38_bad_date {parseDate : Str → Option τ} (cs rest : List (CommitRec τ)) (c : CommitRec τ)
    (h : ∀ x ∈ cs, x.Ok parseDate) (hc : c.Ok (fun _ => some c.date)) (hbad : parseDate c.dateText = none)
    (hr : ∀ x ∈ rest, x.Ok (fun _ => some x.date))
    (hlen : ∀ x ∈ cs ++ c :: rest, ∀ l ∈ x.lines, l.length < 65536) :
    ∃ ms, metaRun parseDate (metaLogText (cs ++ c :: rest)) = (ms, some (.error "error parsing commit")) ∧
      ms.length = cs.length ∧
      ∀ (i : Nat) (x : CommitRec τ) (m : MetaCommit τ), cs[i]? = some x → ms[i]? = some m → Reported x (i + 1) m := by
  refine ⟨builtCommits 1 cs, ?_, builtCommits_length _ _, fun i x m hx hm => by
    have := builtCommits_get 1 cs h i x m hx hm
    rwa [Nat.add_comm] at this⟩
  unfold metaRun metaLogText
  rw [scan_unlines]
  · obtain ⟨p', h1, h2, h3⟩ := metaSteps_commits cs h {}
    rw [List.flatMap_append, List.map_append, metaLoop_append h1, List.flatMap_cons, List.map_append, CommitRec.lines,
      List.map_append, headLines_dropCR hc]
    rw [show builtCommits 1 cs = p'.flush by rw [h2]; rfl]
    clear h1 h2 h3
    have step : ∀ {p p' : MetaParser τ} {l : Str} {ls : List Str}, metaParse parseDate p l = .ok p' →
        metaLoop parseDate p (l :: ls) = metaLoop parseDate p' ls := by
      intro p p' l ls hp
      simp only [metaLoop, hp]
    refine (step (metaParse_sha parseDate p' c.sha hc.sha)).trans ?_
    refine (step (hdr_parents parseDate _ _ rfl rfl rfl c.parents hc.parents)).trans ?_
    refine (step (hdr_committer parseDate _ _ rfl rfl _)).trans ?_
    refine (step (hdr_cname parseDate _ _ rfl rfl _)).trans ?_
    refine (step (hdr_author parseDate _ _ rfl rfl _)).trans ?_
    refine (step (hdr_aname parseDate _ _ rfl rfl _)).trans ?_
    have hb := fun (p : MetaParser τ) (m : MetaCommit τ) (h1 : p.commit = some m) (h2 : p.state = .header) =>
      hdr_bad_date parseDate p m h1 h2 _ hbad hc.date.2
    have last : ∀ {p : MetaParser τ} {l : Str} {ls : List Str} {f : Fault}, metaParse parseDate p l = .error f →
        metaLoop parseDate p (l :: ls) = (p.sent, some f) := by
      intro p l ls f hp
      simp only [metaLoop, hp]
    exact last (hb _ _ rfl rfl)
  · intro l hl
    obtain ⟨x, hx, hl'⟩ := List.mem_flatMap.1 hl
    simp only [List.mem_append, List.mem_cons] at hx
    rcases hx with hx | rfl | hx
    · exact commit_lines_noNL (h x hx) l hl'
    · exact commit_lines_noNL hc l hl'
    · exact commit_lines_noNL (hr x hx) l hl'
  · intro l hl
    obtain ⟨x, hx, hl⟩ := List.mem_flatMap.1 hl
    exact hlen x hx l hl

/-- One good commit, then one whose date the parser does not accept. -/
example : ∃ (cs : List (CommitRec Nat)) (c : CommitRec Nat), cs ≠ [] ∧
    (∀ x ∈ cs, x.Ok (fun d => if d = b!"bad" then none else some 7)) ∧ c.Ok (fun _ => some c.date) ∧
    (fun d => if d = b!"bad" then none else some 7) c.dateText = none ∧
    (∀ x ∈ cs ++ [c], ∀ l ∈ x.lines, l.length < 65536) := by
  refine ⟨[{ sha := b!"a1", parents := [], committerEmail := [], committerName := [], authorEmail := [], authorName := [],
             dateText := b!"ok", date := 7, message := [] }],
    { sha := b!"a2", parents := [b!"a1"], committerEmail := [], committerName := [], authorEmail := [], authorName := [],
      dateText := b!"bad", date := 0, message := [] }, by decide, ?_, ?_, by decide, by decide⟩
  · intro x hx
    simp only [List.mem_singleton] at hx
    subst hx
    exact ⟨⟨by decide, by decide⟩, by decide, by decide, by decide, by intro s hs; simp at hs, by intro s hs; simp at hs,
      by intro s hs; simp at hs, by decide, by decide⟩
  · exact ⟨⟨by decide, by decide⟩, by decide, by decide, by decide, by intro s hs; simp at hs, by intro s hs; simp at hs,
      by intro s hs; simp at hs, by decide, by decide⟩

/-- **C38.** Counts: a decimal number with or without a sign is read as that number, clipped to the 32-bit range; anything that is
not a number counts as 0. -/
theorem C38_numbers (n : Nat) :
    parseInt32 (itoa n) = min (n : Int) (2 ^ 31 - 1) ∧ parseInt32 (43 :: itoa n) = min (n : Int) (2 ^ 31 - 1) ∧
      parseInt32 (45 :: itoa n) = max (-(n : Int)) (-(2 ^ 31)) := by
  have hp := parseNat_itoa n
  have h1 : parseInt32 (43 :: itoa n) = min (n : Int) (2 ^ 31 - 1) := by
    simp only [parseInt32, hp]
    split <;> omega
  refine ⟨?_, h1, ?_⟩
  · rw [← h1]
    have hd := itoa_digits n
    have hne := itoa_ne_nil n
    simp only [parseInt32]
    cases hs : itoa n with
    | nil => exact absurd hs hne
    | cons b r =>
      rw [hs] at hd
      have hb := hd b (by simp)
      split
      · rename_i r' heq; cases heq; exact absurd hb.1 (by decide)
      · rename_i r' heq; cases heq; exact absurd hb.1 (by decide)
      · rfl
  · simp only [parseInt32, hp]
    split <;> omega

example : parseInt32 b!"4294967296" = 2147483647 ∧ parseInt32 b!"-12" = -12 ∧ parseInt32 b!"1e3" = 0 ∧ parseInt32 b!"-" = 0 := by
  decide

end Ripsrc
