import Verif.Props.ExecPiped
import Verif.Props.Graph
/-!
# C62 for the two readers: the commit metadata and the commit graph
-/
namespace Ripsrc
open Spec
variable {σ α τ : Type}

/-! ## The readers without goroutines are the ones of C38 and C12 -/

theorem needCommit_bind {β : Type} (p : MetaParser τ) (k : MetaCommit τ → Go β) (y : β) (h : (needCommit p >>= k) = .ok y) : ∃ c, k c = .ok y := by
  unfold needCommit at h
  cases hc : p.commit with
  | none => rw [hc] at h; cases h
  | some c => rw [hc] at h; exact ⟨c, h⟩

theorem metaHeader_sent (parseDate : Str → Option τ) (p p' : MetaParser τ) (buf : Str) (h : metaHeader parseDate p buf = .ok p') : p.sent <+: p'.sent := by
  unfold metaHeader at h
  split at h
  · simp only [Except.ok.injEq] at h
    subst h
    simp only
    cases p.commit with
    | none => exact List.prefix_refl _
    | some c => by_cases hc : c.sha ≠ [] <;> simp [hc]
  · obtain ⟨q, hq, h⟩ : ∃ q : MetaParser τ, q.sent = p.sent ∧ (if startsWith buf b!"!Date: " then
      match parseDate (trimSpace (buf.drop 7)) with
      | none => do
        let _ ← needCommit q
        .error (.error "error parsing commit")
      | some t => do
        let c ← needCommit q
        .ok { q with commit := some { c with date := some t } }
    else if startsWith buf b!"!Author: " then do
      let c ← needCommit q
      .ok { q with commit := some { c with authorEmail := buf.drop 9 } }
    else if startsWith buf b!"!AName: " then do
      let c ← needCommit q
      .ok { q with commit := some { c with authorName := buf.drop 8 } }
    else if startsWith buf b!"!Committer: " then do
      let c ← needCommit q
      .ok { q with commit := some { c with committerEmail := buf.drop 12 } }
    else if startsWith buf b!"!CName: " then do
      let c ← needCommit q
      .ok { q with commit := some { c with committerName := buf.drop 8 } }
    else if startsWith buf b!"!Message: " then do
      let c ← needCommit q
      .ok { q with commit := some { c with message := buf.drop 10 }, state := .files }
    else .ok q : Go (MetaParser τ)) = .ok p' := by
      split at h
      · unfold needCommit at h
        cases hc : p.commit with
        | none => rw [hc] at h; cases h
        | some c => rw [hc] at h; exact ⟨{ p with commit := some { c with parents := splitByte 32 (buf.drop 10) } }, rfl, h⟩
      · exact ⟨p, rfl, h⟩
    rw [← hq]
    split at h
    · split at h
      · obtain ⟨c, h⟩ := needCommit_bind _ _ _ h; cases h
      · obtain ⟨c, h⟩ := needCommit_bind _ _ _ h; cases h; exact List.prefix_refl _
    · repeat' split at h
      all_goals first
        | (obtain ⟨c, h⟩ := needCommit_bind _ _ _ h; cases h; exact List.prefix_refl _)
        | (cases h; exact List.prefix_refl _)

theorem metaDiff_sent (parseDate : Str → Option τ) (p p' : MetaParser τ) (buf : Str) (h : metaDiff parseDate p buf = .ok p') : p.sent <+: p'.sent := by
  unfold metaDiff at h
  split at h
  · exact metaHeader_sent parseDate { p with state := .header } p' buf h
  · cases h; exact List.prefix_refl _

theorem metaNumStats_sent (parseDate : Str → Option τ) (p p' : MetaParser τ) (buf : Str) (h : metaNumStats parseDate p buf = .ok p') : p.sent <+: p'.sent := by
  unfold metaNumStats at h
  split at h
  · cases hc : needCommit p with
    | error f => rw [hc] at h; cases h
    | ok c => rw [hc] at h; cases h; exact List.prefix_refl _
  · exact metaDiff_sent parseDate { p with state := .diff } p' buf h

theorem metaFiles_sent (parseDate : Str → Option τ) (p p' : MetaParser τ) (buf : Str) (h : metaFiles parseDate p buf = .ok p') : p.sent <+: p'.sent := by
  unfold metaFiles at h
  split at h
  · cases hc : needCommit p with
    | error f => rw [hc] at h; cases h
    | ok c =>
      rw [hc] at h
      simp only [bind, Except.bind] at h
      cases hr : metaRawLine c buf with
      | error f => rw [hr] at h; cases h
      | ok c' => rw [hr] at h; cases h; exact List.prefix_refl _
  · exact metaNumStats_sent parseDate { p with state := .numStats } p' buf h

theorem metaParse_sent (parseDate : Str → Option τ) (p p' : MetaParser τ) (buf : Str) (h : metaParse parseDate p buf = .ok p') : p.sent <+: p'.sent := by
  unfold metaParse at h
  split at h
  · cases h; exact List.prefix_refl _
  · split at h
    · exact metaHeader_sent parseDate p p' buf h
    · exact metaFiles_sent parseDate p p' buf h
    · exact metaNumStats_sent parseDate p p' buf h
    · exact metaDiff_sent parseDate p p' buf h

theorem metaReader_loop (parseDate : Str → Option τ) (b : Bool) (ls : List Str) (p : MetaParser τ) :
    metaLoop parseDate p ls = (p.sent ++ ((metaReader parseDate).loop b p ls).1, ((metaReader parseDate).loop b p ls).2) := by
  induction ls generalizing p with
  | nil =>
    simp only [metaLoop, LineReader.loop, metaReader]
    cases p.commit with
    | none => simp
    | some c => by_cases hc : c.sha = [] <;> simp [hc]
  | cons l ls ih =>
    simp only [metaLoop, LineReader.loop]
    cases hp : metaParse parseDate p l with
    | error f => simp [metaReader, hp, bind, Except.bind]
    | ok p' =>
      obtain ⟨x, hx⟩ := metaParse_sent parseDate p p' l hp
      simp only [ih p']
      have : (metaReader parseDate).line p l = .ok (p', x) := by
        simp [metaReader, hp, bind, Except.bind, ← hx]
      rw [this]
      simp [← hx]

/-- The reader of the metadata on a whole text is `metaRun` of C38 and C39. -/
theorem metaReader_run (parseDate : Str → Option τ) (text : Str) : (metaReader parseDate).run text = metaRun parseDate text := by
  have := metaReader_loop parseDate (scan metaMaxLine text).2 (scan metaMaxLine text).1 ({} : MetaParser τ)
  unfold LineReader.run metaRun
  rw [this]
  rfl

theorem parentsReader_loop (b : Bool) (ls : List Str) (m : GoMap Str (List Str)) :
    parentsReader.loop b m ls = match (ls.foldlM parentsLine m >>= fun res => if b then .error (.error "bufio.Scanner: token too long") else .ok res : Go _) with
      | .ok m' => ([m'], none)
      | .error f => ([], some f) := by
  induction ls generalizing m with
  | nil => cases b <;> simp [LineReader.loop, parentsReader, bind, Except.bind, pure, Except.pure]
  | cons l ls ih =>
    simp only [LineReader.loop, List.foldlM_cons]
    cases hp : parentsLine m l with
    | error f => simp [parentsReader, hp, bind, Except.bind]
    | ok m' =>
      have : parentsReader.line m l = .ok (m', []) := by simp [parentsReader, hp, bind, Except.bind]
      rw [this]
      simp only [List.nil_append]
      rw [ih m']
      rfl

/-- The reader of the commit graph on a whole text is `parentsRun` of C12. -/
theorem parentsReader_run (text : Str) : parentsReader.run text = match parentsRun text with
    | .ok m => ([m], none)
    | .error f => ([], some f) := by
  unfold LineReader.run
  rw [parentsReader_loop]
  rfl

/-! ## The metadata of a log -/

theorem commitMap_get (ms : List (MetaCommit τ)) (m0 : GoMap Str (MetaCommit τ)) (hd : (ms.map (·.sha)).Nodup) (k : Str) :
    GoMap.get (ms.foldl (fun m c => GoMap.set m c.sha c) m0) k = match ms.find? (fun c => decide (c.sha = k)) with
      | some c => some c
      | none => GoMap.get m0 k := by
  induction ms generalizing m0 with
  | nil => rfl
  | cons c ms ih =>
    simp only [List.map_cons, List.nodup_cons] at hd
    rw [List.foldl_cons, ih _ hd.2, List.find?_cons]
    by_cases hk : c.sha = k
    · subst hk
      have : ms.find? (fun x => decide (x.sha = c.sha)) = none := by
        rw [List.find?_eq_none]
        intro x hx
        simp only [decide_eq_true_eq]
        intro he
        exact hd.1 (List.mem_map.2 ⟨x, hx, he⟩)
      rw [this]
      simp
    · have hd' : decide (c.sha = k) = false := by simp [hk]
      rw [hd']
      simp only
      rw [GoMap.get_set_ne _ _ hk]

theorem reported_shas {cs : List (CommitRec τ)} {ms : List (MetaCommit τ)} (hlen : ms.length = cs.length)
    (h : ∀ (i : Nat) (c : CommitRec τ) (m : MetaCommit τ), cs[i]? = some c → ms[i]? = some m → Reported c (i + 1) m) : ms.map (·.sha) = cs.map (·.sha) := by
  apply List.ext_getElem?
  intro i
  simp only [List.getElem?_map]
  by_cases hi : i < cs.length
  · have h1 : cs[i]? = some cs[i] := List.getElem?_eq_getElem hi
    have h2 : ms[i]? = some (ms[i]'(by omega)) := List.getElem?_eq_getElem (by omega)
    rw [h1, h2]
    simp [(h i _ _ h1 h2).sha]
  · rw [List.getElem?_eq_none (by omega), List.getElem?_eq_none (by omega)]; rfl

theorem commitMap_of_reported {cs : List (CommitRec τ)} {ms : List (MetaCommit τ)} (hlen : ms.length = cs.length)
    (h : ∀ (i : Nat) (c : CommitRec τ) (m : MetaCommit τ), cs[i]? = some c → ms[i]? = some m → Reported c (i + 1) m) (hd : (cs.map (·.sha)).Nodup) :
    (∀ (i : Nat) (c : CommitRec τ), cs[i]? = some c → ∃ mc, GoMap.get (commitMap ms) c.sha = some mc ∧ Reported c (i + 1) mc) ∧
      ∀ k mc, GoMap.get (commitMap ms) k = some mc → ∃ c ∈ cs, c.sha = k := by
  have hsh := reported_shas hlen h
  have hd' : (ms.map (·.sha)).Nodup := by rw [hsh]; exact hd
  refine ⟨?_, ?_⟩
  · intro i c hc
    have hi : i < cs.length := (List.getElem?_eq_some_iff.1 hc).1
    have h2 : ms[i]? = some (ms[i]'(by omega)) := List.getElem?_eq_getElem (by omega)
    have hr := h i c _ hc h2
    refine ⟨ms[i]'(by omega), ?_, hr⟩
    unfold commitMap
    rw [commitMap_get _ _ hd']
    cases hf : ms.find? (fun x => decide (x.sha = c.sha)) with
    | none =>
      rw [List.find?_eq_none] at hf
      have := hf _ (List.mem_of_getElem? h2)
      simp [hr.sha] at this
    | some y =>
      have hy1 := List.mem_of_find?_eq_some hf
      have hy2 := List.find?_some hf
      simp only [decide_eq_true_eq] at hy2
      obtain ⟨j, hj⟩ := List.mem_iff_getElem?.1 hy1
      have hjl : j < ms.length := (List.getElem?_eq_some_iff.1 hj).1
      have e1 : (ms.map (·.sha))[j]'(by simpa using hjl) = (ms.map (·.sha))[i]'(by simp; omega) := by
        simp only [List.getElem_map]
        rw [(List.getElem?_eq_some_iff.1 hj).2, hy2, hr.sha]
      have e2 := (List.getElem_inj hd').1 e1
      subst e2
      rw [(List.getElem?_eq_some_iff.1 hj).2]
  · intro k mc hk
    unfold commitMap at hk
    rw [commitMap_get _ _ hd'] at hk
    cases hf : ms.find? (fun x => decide (x.sha = k)) with
    | none => rw [hf] at hk; simp at hk
    | some y =>
      have hy1 := List.mem_of_find?_eq_some hf
      have hy2 := List.find?_some hf
      simp only [decide_eq_true_eq] at hy2
      have : k ∈ cs.map (·.sha) := by rw [← hsh, ← hy2]; exact List.mem_map.2 ⟨y, hy1, rfl⟩
      obtain ⟨c, hc, he⟩ := List.mem_map.1 this
      exact ⟨c, hc, he⟩

/-- **C62 (metadata).** For the log of commits with different hashes, with lines below the limit of the scanner: no schedule crashes, every schedule ends, and then the call has returned, without
error, the commits of the log in order, and the map has exactly these commits, each as in C38. -/
theorem C62_metadata {parseDate : Str → Option τ} (cs : List (CommitRec τ)) (h : ∀ c ∈ cs, c.Ok parseDate) (hlen : ∀ c ∈ cs, ∀ l ∈ c.lines, l.length < 65536)
    (hd : (cs.map (·.sha)).Nodup) {n : Nat} {t : StreamSt (MetaParser τ) (MetaCommit τ)} (hs : StreamSteps (metaReader parseDate) false n (streamInit (metaReader parseDate) (metaLogText cs)) t) :
    ¬ t.Crashed ∧ n ≤ 5 * (metaLogText cs).length + cs.length + 14 ∧ (t.Stuck (metaReader parseDate) false → ∃ ms, t.caller = .returned none ms ∧ ms.length = cs.length ∧
      (∀ (i : Nat) (c : CommitRec τ) (m : MetaCommit τ), cs[i]? = some c → ms[i]? = some m → Reported c (i + 1) m) ∧
      (∀ (i : Nat) (c : CommitRec τ), cs[i]? = some c → ∃ mc, GoMap.get (commitMap ms) c.sha = some mc ∧ Reported c (i + 1) mc) ∧
      ∀ k mc, GoMap.get (commitMap ms) k = some mc → ∃ c ∈ cs, c.sha = k) := by
  obtain ⟨ms, h1, h2, h3⟩ := C38_commit_parser cs h hlen
  rw [← metaReader_run] at h1
  have hmax : 0 < (metaReader parseDate).max := by simp [metaReader, metaMaxLine]
  have hlong : (scan (metaReader parseDate).max (metaLogText cs)).2 = false := by
    unfold metaLogText
    rw [scan_unlines]
    · intro l hl
      obtain ⟨c, hc, hl⟩ := List.mem_flatMap.1 hl
      exact commit_lines_noNL (h c hc) l hl
    · intro l hl
      obtain ⟨c, hc, hl⟩ := List.mem_flatMap.1 hl
      exact hlen c hc l hl
  have hc := C62_complete hmax (by rw [h1]) hlong hs
  have hb := C62_terminates hmax hs
  rw [h1, h2] at hb
  refine ⟨hc.1, hb, fun hst => ⟨ms, ?_, h2, h3, ?_⟩⟩
  · have := (hc.2 hst).1
    rw [h1] at this
    exact this
  · exact commitMap_of_reported h2 h3 hd

/-- **C62 (graph).** For the output of git for the commit graph: no schedule crashes, and every schedule ends with the map of C12. -/
theorem C62_graph (cs : List (Str × List Str)) (hhash : ∀ c ∈ cs, IsHash c.1 ∧ ∀ p ∈ c.2, IsHash p) (hcons : ∀ c ∈ cs, ∀ d ∈ cs, c.1 = d.1 → c = d)
    (hlen : ∀ c ∈ cs, (parentsLineOf c).length < 1000000) {n : Nat} {t : StreamSt (GoMap Str (List Str)) (GoMap Str (List Str))}
    (hs : StreamSteps parentsReader false n (streamInit parentsReader (parentsText cs)) t) :
    ¬ t.Crashed ∧ (t.Stuck parentsReader false → ∃ m, t.caller = .returned none [m] ∧ ∀ h ps, GoMap.get m h = some ps ↔ (h, ps) ∈ cs) := by
  obtain ⟨m, h1, _, h3⟩ := C12_graph_reader cs hhash hcons hlen
  have hrun : parentsReader.run (parentsText cs) = ([m], none) := by rw [parentsReader_run, h1]
  have hlong : (scan parentsReader.max (parentsText cs)).2 = false := by
    have : (scan parentsMaxLine (parentsText cs)).2 = true → parentsRun (parentsText cs) ≠ .ok m := by
      intro hb he
      unfold parentsRun at he
      simp only [hb, bind, Except.bind] at he
      split at he <;> simp at he
    cases hb : (scan parentsMaxLine (parentsText cs)).2 with
    | true => exact absurd h1 (this hb)
    | false => exact hb
  have hc := C62_complete (r := parentsReader) (by simp [parentsReader, parentsMaxLine]) (by rw [hrun]) hlong hs
  refine ⟨hc.1, fun hst => ⟨m, ?_, h3⟩⟩
  have := (hc.2 hst).1
  rw [hrun] at this
  exact this

/-! ## Over-long lines -/

theorem stopsEarly_long {r : LineReader σ α} {s : σ} {b : Bool} (before : List Str) (l tail : Str) (hb : ∀ x ∈ before, NoNL x) (hshort : ∀ x ∈ before, x.length < r.max)
    (hok : (r.loop b s (before.map dropCR)).2 = none) (hl : NoNL l) (hlong : r.max ≤ l.length) : StopsEarly r s (unlines before ++ (l ++ 10 :: tail)) := by
  induction before generalizing s with
  | nil =>
    have : l ++ 10 :: tail = l.take r.max ++ (l.drop r.max ++ 10 :: tail) := by rw [← List.append_assoc, List.take_append_drop]
    rw [unlines_nil, List.nil_append, this]
    refine .long _ _ (fun hx => hl (List.mem_of_mem_take hx)) (by simp; omega) (by simp)
  | cons x xs ih =>
    simp only [List.map_cons, LineReader.loop] at hok
    cases hx : r.line s (dropCR x) with
    | error f => rw [hx] at hok; simp at hok
    | ok y =>
      obtain ⟨s', ys⟩ := y
      rw [hx] at hok
      simp only at hok
      rw [unlines_cons, List.append_assoc, List.cons_append]
      exact .next _ _ ys (hb x (List.mem_cons_self ..)) (hshort x (List.mem_cons_self ..)) hx
        (ih (fun y hy => hb y (List.mem_cons_of_mem _ hy)) (fun y hy => hshort y (List.mem_cons_of_mem _ hy)) hok)

/-- **C62 (finding).** A line of 64 KiB or more in the metadata log (see C39: the commits after it are not reported, and the call reports no error) makes the program crash, in every schedule and
whatever follows: the scanner leaves at least the end of that line unread, and the goroutine that runs git panics when its pipe is closed. -/
theorem C62_long_line_crashes (parseDate : Str → Option τ) (before after : List Str) (l : Str) (hb : ∀ x ∈ before, NoNL x) (hl : NoNL l) (hlong : 65536 ≤ l.length)
    (hshort : ∀ x ∈ before, x.length < 65536) (hok : (metaRun parseDate (unlines before)).2 = none) (fails : Bool) {n : Nat} {t : StreamSt (MetaParser τ) (MetaCommit τ)}
    (hs : StreamSteps (metaReader parseDate) fails n (streamInit (metaReader parseDate) (unlines (before ++ l :: after))) t) (hst : t.Stuck (metaReader parseDate) fails) : t.Crashed := by
  refine C62_unread_output_crashes (by simp [metaReader, metaMaxLine]) ?_ hs hst
  have : unlines (before ++ l :: after) = unlines before ++ (l ++ 10 :: unlines after) := by simp [unlines]
  rw [this]
  refine stopsEarly_long (b := false) before l _ hb hshort ?_ hl hlong
  rw [← metaReader_run] at hok
  unfold LineReader.run at hok
  rw [scan_unlines (metaReader parseDate).max _ hb hshort] at hok
  exact hok

/-- **C62 (finding).** The same for the commit graph, at 1,000,000 bytes: the error that is reported (C12) is followed by a crash. -/
theorem C62_long_line_crashes_graph (pre : List (Str × List Str)) (l rest : Str) (hpre : ∀ c ∈ pre, IsHash c.1 ∧ ∀ p ∈ c.2, IsHash p)
    (hlen : ∀ c ∈ pre, (parentsLineOf c).length < 1000000) (hl : NoNL l) (hlong : 1000000 ≤ l.length) (fails : Bool) {n : Nat} {t : StreamSt (GoMap Str (List Str)) (GoMap Str (List Str))}
    (hs : StreamSteps parentsReader fails n (streamInit parentsReader (unlines (pre.map parentsLineOf) ++ l ++ 10 :: rest)) t) (hst : t.Stuck parentsReader fails) : t.Crashed := by
  refine C62_unread_output_crashes (by simp [parentsReader, parentsMaxLine]) ?_ hs hst
  rw [List.append_assoc]
  have hfree : ∀ b : UInt8, isHex b = false → b ≠ 64 → b ≠ 32 → ∀ l ∈ pre.map parentsLineOf, b ∉ l := by
    intro b hb h64 h32 l hl
    obtain ⟨c, hc, rfl⟩ := List.mem_map.1 hl
    obtain ⟨h1, h2⟩ := hpre c hc
    unfold parentsLineOf
    simp only [List.mem_append, List.mem_singleton, not_or]
    exact ⟨⟨h1.not_mem hb, h64⟩, not_mem_joinWith (by simpa using h32) (fun l hl => (h2 l hl).not_mem hb)⟩
  refine stopsEarly_long (b := false) _ l _ (hfree 10 (by decide) (by decide) (by decide)) ?_ ?_ hl hlong
  · intro x hx
    obtain ⟨c, hc, rfl⟩ := List.mem_map.1 hx
    exact hlen c hc
  · have hcr : (pre.map parentsLineOf).map dropCR = pre.map parentsLineOf :=
      (List.map_congr_left (fun l hl => dropCR_of_not_mem (hfree 13 (by decide) (by decide) (by decide) l hl))).trans (by simp)
    rw [hcr, parentsReader_loop]
    have : parentsReader.start = ([] : GoMap Str (List Str)) := rfl
    rw [this, parentsFold pre [] hpre]
    rfl

/-! ## The hypotheses are met -/

/-- The commits of the example of C38: every schedule returns both, and there is a schedule that ends. -/
example : (∀ c ∈ exMeta, c.Ok exDate) ∧ (∀ c ∈ exMeta, ∀ l ∈ c.lines, l.length < 65536) ∧ (exMeta.map (·.sha)).Nodup ∧
    ∃ n t, StreamSteps (metaReader exDate) false n (streamInit (metaReader exDate) (metaLogText exMeta)) t ∧ t.Stuck (metaReader exDate) false ∧
      ∃ ms, t.caller = .returned none ms ∧ ms.length = 2 := by
  have hl : ∀ c ∈ exMeta, ∀ l ∈ c.lines, l.length < 65536 := by decide
  have hd : (exMeta.map (·.sha)).Nodup := by decide
  obtain ⟨n, t, h1, h2⟩ := C62_can_end (r := metaReader exDate) (fails := false) (text := metaLogText exMeta) (by decide) (.refl _)
  obtain ⟨ms, h3, h4, _⟩ := (C62_metadata exMeta exMeta_ok hl hd h1).2.2 h2
  exact ⟨exMeta_ok, hl, hd, _, t, h1, h2, ms, h3, h4⟩

/-- The same if git fails: every schedule ends with a crash. -/
example : ∃ n t, StreamSteps (metaReader exDate) true n (streamInit (metaReader exDate) (metaLogText exMeta)) t ∧ t.Stuck (metaReader exDate) true ∧ t.Crashed := by
  obtain ⟨n, t, h1, h2⟩ := C62_can_end (r := metaReader exDate) (fails := true) (text := metaLogText exMeta) (by decide) (.refl _)
  have hrun : ((metaReader exDate).run (metaLogText exMeta)).2 = none := by rw [metaReader_run, metaRun_eq exMeta exMeta_ok (by decide)]
  have hlong : (scan (metaReader exDate).max (metaLogText exMeta)).2 = false := by
    unfold metaLogText
    rw [scan_unlines]
    · intro l hl
      obtain ⟨c, hc, hl⟩ := List.mem_flatMap.1 hl
      exact commit_lines_noNL (exMeta_ok c hc) l hl
    · decide
  exact ⟨_, t, h1, h2, (C62_git_fails (by decide) hrun hlong h1).2 h2⟩

/-- A bad date is an error, a line without `@` in the graph a panic. -/
example : ((metaReader exDate).run b!"!SHA: a\n!Date: x\n").2 = some (.error "error parsing commit") ∧
    (parentsReader.run b!"a1@\nb2\n").2 = some (.panic "index out of range: parts[1]") := by
  refine ⟨?_, ?_⟩
  · rw [metaReader_run]; decide
  · rw [parentsReader_run]; decide

/-- A subject of 64 KiB. -/
example : ∃ (before after : List Str) (l : Str), before.length = 7 ∧ after ≠ [] ∧ (∀ x ∈ before, NoNL x) ∧ NoNL l ∧ 65536 ≤ l.length ∧ (∀ x ∈ before, x.length < 65536) ∧
    (metaRun exDate (unlines before)).2 = none ∧ ∃ n t, StreamSteps (metaReader exDate) false n (streamInit (metaReader exDate) (unlines (before ++ l :: after))) t ∧
      t.Stuck (metaReader exDate) false ∧ t.Crashed := by
  have h1 : ∀ x ∈ [b!"!SHA: c1", b!"!Parents: ", b!"!Committer: e@x", b!"!CName: C N", b!"!Author: a@x", b!"!AName: A N", b!"!Date: 2018-11-27T21:55:36+01:00"], NoNL x := by decide
  have h2 : ∀ x ∈ [b!"!SHA: c1", b!"!Parents: ", b!"!Committer: e@x", b!"!CName: C N", b!"!Author: a@x", b!"!AName: A N", b!"!Date: 2018-11-27T21:55:36+01:00"], x.length < 65536 := by decide
  have h3 : (metaRun exDate (unlines [b!"!SHA: c1", b!"!Parents: ", b!"!Committer: e@x", b!"!CName: C N", b!"!Author: a@x", b!"!AName: A N",
    b!"!Date: 2018-11-27T21:55:36+01:00"])).2 = none := by decide
  have h4 : NoNL (b!"!Message: " ++ List.replicate 65536 120) := by
    intro hx
    rcases List.mem_append.1 hx with hx | hx
    · revert hx; decide
    · exact absurd (List.eq_of_mem_replicate hx) (by decide)
  have h5 : 65536 ≤ (b!"!Message: " ++ List.replicate 65536 120 : Str).length := by rw [List.length_append, List.length_replicate]; omega
  refine ⟨_, [[], b!"!SHA: c2"], _, rfl, by simp, h1, h4, h5, h2, h3, ?_⟩
  obtain ⟨n, t, h6, h7⟩ := C62_can_end (r := metaReader exDate) (fails := false) (text := unlines (_ ++ _ :: [[], b!"!SHA: c2"])) (by decide) (.refl _)
  exact ⟨_, t, h6, h7, C62_long_line_crashes exDate _ _ _ h1 h4 h5 h2 h3 false h6 h7⟩

end Ripsrc
