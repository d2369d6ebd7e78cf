import Verif.Props.Whole
import Verif.Props.ExecPipedUse
/-!
# C57 from the texts that git prints

The graph and the metadata of C57 are no longer given: they are what the readers compute from the output of git (`C62_metadata` and `C62_graph` say that the goroutines deliver this in every schedule).
-/
namespace Ripsrc
open Spec Conc

/-- A file that is reported as renamed comes from a raw line. -/
theorem file_renamed {τ : Type} (c : CommitRec τ) (p : Str) (f : CommitFile) (h : c.file p = some f) (hr : f.renamed = true) :
    ∃ r ∈ c.raws, r.Regular ∧ (∃ src score, r.kind = .renamed src score) ∧ f.renamedTo = r.path := by
  have key : ∀ g : CommitFile, (c.entries.find? (fun e => decide (e.1 = p))).map Prod.snd = some g → g.renamed = true →
      ∃ r ∈ c.raws, r.Regular ∧ (∃ src score, r.kind = .renamed src score) ∧ g.renamedTo = r.path := by
    intro g hg hgr
    cases hf : c.entries.find? (fun e => decide (e.1 = p)) with
    | none => rw [hf] at hg; cases hg
    | some e =>
      rw [hf] at hg
      cases hg
      have hm := List.mem_of_find?_eq_some hf
      obtain ⟨r, hr1, hr2⟩ := List.mem_flatMap.1 hm
      refine ⟨r, hr1, ?_⟩
      unfold RawRec.entries at hr2
      by_cases hreg : r.Regular
      · rw [if_pos hreg] at hr2
        refine ⟨hreg, ?_⟩
        cases hk : r.kind with
        | renamed src score =>
          rw [hk] at hr2
          simp only [List.mem_cons, List.not_mem_nil, or_false] at hr2
          refine ⟨⟨src, score, rfl⟩, ?_⟩
          rcases hr2 with rfl | rfl <;> rfl
        | _ =>
          rw [hk] at hr2
          simp only [List.mem_cons, List.not_mem_nil, or_false] at hr2
          subst hr2
          cases hgr
      · rw [if_neg hreg] at hr2
        cases hr2
  unfold CommitRec.file at h
  simp only at h
  cases hs : c.stats.find? (fun s => decide (s.path = p)) with
  | none => rw [hs] at h; exact key f h hr
  | some s =>
    rw [hs] at h
    simp only [Option.some.injEq] at h
    cases hb : (c.entries.find? (fun e => decide (e.1 = p))).map Prod.snd with
    | none =>
      rw [hb] at h
      subst h
      unfold StatRec.enter at hr
      cases hc : s.counts with
      | none => rw [hc] at hr; cases hr
      | some k => rw [hc] at hr; cases hr
    | some g =>
      rw [hb] at h
      subst h
      unfold StatRec.enter at hr ⊢
      cases hc : s.counts with
      | none => rw [hc] at hr; simp only at hr ⊢; exact key g hb hr
      | some k => rw [hc] at hr; simp only at hr ⊢; exact key g hb hr

/-- What git prints for the graph and the metadata belongs to the history `H`. -/
structure Spec.PrintedFor {τ : Type} (H : History) (parseDate : Str → Option τ) (gs : List (Str × List Str)) (cs : List (CommitRec τ)) : Prop where
  hashes : ∀ g ∈ gs, IsHash g.1 ∧ ∀ p ∈ g.2, IsHash p
  consistent : ∀ g ∈ gs, ∀ d ∈ gs, g.1 = d.1 → g = d
  short : ∀ g ∈ gs, (parentsLineOf g).length < 1000000
  graph : ∀ c ∈ H, (c.hash, c.parents) ∈ gs
  text : ∀ r ∈ cs, r.Ok parseDate
  lines : ∀ r ∈ cs, ∀ l ∈ r.lines, l.length < 65536
  once : (cs.map (·.sha)).Nodup
  metas : ∀ c ∈ H, ∃ r ∈ cs, r.sha = c.hash
  renames : ∀ c ∈ H, ∀ r ∈ cs, r.sha = c.hash → ∀ x ∈ r.raws, x.Regular → (∃ src score, x.kind = .renamed src score) → c.Writes H x.path

theorem metasOf_printed {τ : Type} {H : History} {parseDate : Str → Option τ} {gs : List (Str × List Str)} {cs : List (CommitRec τ)} (h : PrintedFor H parseDate gs cs)
    {ms : List (MetaCommit τ)} (hlen : ms.length = cs.length)
    (hrep : ∀ (i : Nat) (c : CommitRec τ) (m : MetaCommit τ), cs[i]? = some c → ms[i]? = some m → Reported c (i + 1) m) : MetasOf H (commitMap ms) := by
  obtain ⟨h1, h2⟩ := commitMap_of_reported hlen hrep h.once
  have hget : ∀ r ∈ cs, ∃ mc n, GoMap.get (commitMap ms) r.sha = some mc ∧ Reported r n mc := by
    intro r hr
    obtain ⟨i, hi⟩ := List.mem_iff_getElem?.1 hr
    obtain ⟨mc, e1, e2⟩ := h1 i r hi
    exact ⟨mc, _, e1, e2⟩
  constructor
  · intro c hc
    obtain ⟨r, hr, he⟩ := h.metas c hc
    obtain ⟨mc, _, hg, _⟩ := hget r hr
    exact ⟨mc, he ▸ hg⟩
  · intro c hc mc hg e he hren
    obtain ⟨r, hr, hs⟩ := h.metas c hc
    obtain ⟨mc', n, hg', hrp⟩ := hget r hr
    rw [hs, hg] at hg'
    cases hg'
    have hf : r.file e.1 = some e.2 := by
      rw [← hrp.files e.1]
      exact GoMap.get_of_mem hrp.filesWF he
    obtain ⟨x, hx1, hx2, hx3, hx4⟩ := file_renamed r e.1 e.2 hf hren
    rw [hx4]
    exact h.renames c hc r hr hs x hx1 hx2 hx3

/-- **C57 (from the texts).** Let git print the log of a history, its commit graph and its metadata. Then the two readers give a graph and metadata with which the call of `CodeSlice` returns in every
schedule, without error, with the records of C57, whose lines have the author name, author email and date that git printed for the commit that the line originates from. -/
theorem C57_from_git_output {τ : Type} {env : Env} {G : Str → Str → List Str} {H : History} (hsort : SortsHunks env.srt) (hord : ∀ n k l, (env.order n k l).Perm l)
    (hH : History.Ok [] H) (hblame : BlameWorks H G env.blameOut) {es : List LogEntry} (hlog : LogOf H es) (hne : H ≠ []) (read : Str → Go Repo)
    {cl : Classifier} (hl : Lawful cl) (hlic : ∀ path content, LicenseName path → cl.licenseDb path content ≠ .failed)
    (scc : Str → Str → Str → SccRun) (orders : Nat → Files → Files) (horder : ∀ n fs, (orders n fs).Perm fs)
    {parseDate : Str → Option τ} {gs : List (Str × List Str)} {cs : List (CommitRec τ)} (hp : PrintedFor H parseDate gs cs) :
    ∃ m ms, parentsRun (parentsText gs) = .ok m ∧ metaRun parseDate (metaLogText cs) = (ms, none) ∧ ∀ order : List (Str × List Str), order.Perm m →
      let p : Pipe τ := { env := env, opts := {}, read := read, graph := Graph.newFromMap m order, text := logText es, cl := cl, scc := scc, orders := orders, metas := commitMap ms }
      ∃ (w : Repo × Str) (out : List (MetaCommit τ × List (CodeRecord τ))), AlwaysReturns p (some w) none (out.flatMap (·.2)) ∧ w.2 = (H.getLast hne).hash ∧ out.length = H.length ∧
        ∀ (i : Nat) (c : HCommit) (mc : MetaCommit τ) (recs : List (CodeRecord τ)), H[i]? = some c → out[i]? = some (mc, recs) →
          RecordsOf H G (commitMap ms) c mc recs ∧ (∃ r ∈ cs, ∃ n, r.sha = c.hash ∧ Reported r n mc) ∧
          ∀ rec ∈ recs, rec.skipped = [] ∨ rec.skipped = b!"file was a generated file" → c.Writes H rec.filename → NoTypeChange H c → ¬ IsBin H c.hash rec.filename →
            ∀ (j : Nat) (x : CodeLine τ), rec.lines[j]? = some x → Origin H G c.hash rec.filename j x.sha ∧
              ∃ r ∈ cs, r.sha = x.sha ∧ x.name = dropCR r.authorName ∧ x.email = dropCR r.authorEmail ∧ x.date = some r.date := by
  obtain ⟨m, hm1, hm2, hm3⟩ := C12_graph_reader gs hp.hashes hp.consistent hp.short
  obtain ⟨ms, h1, h2, h3⟩ := C38_commit_parser cs hp.text hp.lines
  refine ⟨m, ms, hm1, h1, fun order hperm => ?_⟩
  intro p
  have hset : Setting env H G m order := ⟨hsort, hord, hH, hblame, hm2, hperm, fun c hc => (hm3 _ _).2 (hp.graph c hc)⟩
  obtain ⟨w, out, k1, k2, k3, k4⟩ := C57_code_of_a_history hset hlog hne read hl hlic scc orders horder (commitMap ms) (metasOf_printed hp h2 h3)
  refine ⟨w, out, k1, k2, k3, ?_⟩
  obtain ⟨g1, g2⟩ := commitMap_of_reported h2 h3 hp.once
  have hget : ∀ k mc, GoMap.get (commitMap ms) k = some mc → ∃ r ∈ cs, ∃ n, r.sha = k ∧ Reported r n mc := by
    intro k mc hk
    obtain ⟨r, hr, he⟩ := g2 k mc hk
    obtain ⟨i, hi⟩ := List.mem_iff_getElem?.1 hr
    obtain ⟨mc', e1, e2⟩ := g1 i r hi
    rw [he, hk] at e1
    cases e1
    exact ⟨r, hr, _, he, e2⟩
  intro i c mc recs hc ho
  have hrec := k4 i c mc recs hc ho
  refine ⟨hrec, hget _ _ hrec.commit.1, ?_⟩
  intro rec hr hsk hw ht hb j x hx
  obtain ⟨_, _, _, hall⟩ := hrec.lines rec hr hsk hw ht hb
  obtain ⟨ho, mm, hmm, e1, e2, e3⟩ := hall j x hx
  refine ⟨ho, ?_⟩
  obtain ⟨r, hr, n, he, hrp⟩ := hget _ _ hmm
  exact ⟨r, hr, he, e1.trans hrp.authorName, e2.trans hrp.authorEmail, e3.trans hrp.date⟩

/-! ### Example -/

def exRec (sha : Str) (parents : List Str) (author : Str) (kind : RawKind) (path : Str) : CommitRec Nat where
  sha := sha
  parents := parents
  committerEmail := b!"e@x"
  committerName := b!"E"
  authorEmail := author ++ b!"@x"
  authorName := author
  dateText := b!"2018-11-27T21:55:36+01:00"
  date := 7
  message := b!"m"
  raws := [⟨b!"100644", b!"100644", b!"1", b!"2", kind, path⟩]
  stats := [{ path := path, name := path, counts := some (1, 1) }]

def exRecs : List (CommitRec Nat) :=
  [exRec b!"c1" [] b!"ann" .added b!"f", exRec b!"c2" [b!"c1"] b!"bob" .added b!"g", exRec b!"c3" [b!"c1"] b!"cy" .modified b!"f",
   exRec b!"c4" [b!"c2", b!"c3"] b!"ann" .modified b!"g", exRec b!"c5" [b!"c4"] b!"ann" .deleted b!"f"]

theorem exRec_ok (sha : Str) (parents : List Str) (author : Str) (kind : RawKind) (path : Str) (h1 : sha ≠ [] ∧ Token sha) (h2 : ∀ p ∈ parents, p ≠ [] ∧ Token p)
    (h3 : NoNL (author ++ b!"@x") ∧ NoNL author) (h4 : RawName path) (h5 : ¬ b!" => " <:+: path) (h6 : kind = .added ∨ kind = .modified ∨ kind = .deleted) :
    (exRec sha parents author kind path).Ok exDate := by
  refine ⟨h1, h2, ⟨show NoNL b!"e@x" by decide, show NoNL b!"E" by decide, h3.1, h3.2, show NoNL b!"m" by decide⟩,
    show exDate b!"2018-11-27T21:55:36+01:00" = some 7 ∧ b!"2018-11-27T21:55:36+01:00" ≠ [] ∧ Graphic b!"2018-11-27T21:55:36+01:00" by decide, ?_, ?_, by simp [exRec], by simp [exRec], ?_⟩
  · intro r hr
    simp only [exRec, List.mem_singleton] at hr
    subst hr
    refine ⟨show Token b!"100644" ∧ Token b!"100644" ∧ Token b!"1" ∧ Token b!"2" by decide, h4, ?_⟩
    rcases h6 with rfl | rfl | rfl <;> trivial
  · intro s hs
    simp only [exRec, List.mem_singleton] at hs
    subst hs
    exact ⟨.same _ h5, h4.1, fun a d h => by cases h; decide⟩
  · rcases h6 with rfl | rfl | rfl <;> simp [exRec, CommitRec.entries, RawRec.entries, RawRec.Regular]

/-- The example history of C57 with its texts meets the hypotheses. -/
theorem ex_printed : PrintedFor Ex.H exDate (Ex.H.map fun c => (c.hash, c.parents)) exRecs := by
  have hno : ∀ s : Str, (61 : UInt8) ∉ s → ¬ b!" => " <:+: s := fun s => not_infix_of_not_mem (by decide)
  refine ⟨by decide, by decide, by decide, ?_, ?_, by decide, by decide, ?_, ?_⟩
  · intro c hc; exact List.mem_map.2 ⟨c, hc, rfl⟩
  · intro r hr
    simp only [exRecs, List.mem_cons, List.not_mem_nil, or_false] at hr
    rcases hr with rfl | rfl | rfl | rfl | rfl
    · exact exRec_ok _ _ _ _ _ (by decide) (by decide) (by decide) (by decide) (hno _ (by decide)) (by simp)
    · exact exRec_ok _ _ _ _ _ (by decide) (by decide) (by decide) (by decide) (hno _ (by decide)) (by simp)
    · exact exRec_ok _ _ _ _ _ (by decide) (by decide) (by decide) (by decide) (hno _ (by decide)) (by simp)
    · exact exRec_ok _ _ _ _ _ (by decide) (by decide) (by decide) (by decide) (hno _ (by decide)) (by simp)
    · exact exRec_ok _ _ _ _ _ (by decide) (by decide) (by decide) (by decide) (hno _ (by decide)) (by simp)
  · intro c hc
    simp only [Ex.H, List.mem_cons, List.not_mem_nil, or_false] at hc
    rcases hc with rfl | rfl | rfl | rfl | rfl
    · exact ⟨_, List.mem_cons_self .., rfl⟩
    · exact ⟨_, List.mem_cons_of_mem _ (List.mem_cons_self ..), rfl⟩
    · exact ⟨_, List.mem_cons_of_mem _ (List.mem_cons_of_mem _ (List.mem_cons_self ..)), rfl⟩
    · exact ⟨_, List.mem_cons_of_mem _ (List.mem_cons_of_mem _ (List.mem_cons_of_mem _ (List.mem_cons_self ..))), rfl⟩
    · exact ⟨_, List.mem_cons_of_mem _ (List.mem_cons_of_mem _ (List.mem_cons_of_mem _ (List.mem_cons_of_mem _ (List.mem_cons_self ..)))), rfl⟩
  · intro c _ r hr _ x hx _ hk
    exfalso
    obtain ⟨a, b, hk⟩ := hk
    simp only [exRecs, List.mem_cons, List.not_mem_nil, or_false] at hr
    rcases hr with rfl | rfl | rfl | rfl | rfl <;> simp only [exRec, List.mem_singleton] at hx <;> subst hx <;> cases hk

example : ∃ m ms, parentsRun (parentsText (Ex.H.map fun c => (c.hash, c.parents))) = .ok m ∧ metaRun exDate (metaLogText exRecs) = (ms, none) := by
  obtain ⟨m, ms, h1, h2, _⟩ := C57_from_git_output Ex.setting.sorts Ex.setting.orders Ex.setting.history Ex.setting.blame ex_log (by decide) (fun _ => .ok []) (exCl_lawful false)
    (fun p c _ => exCl_license p c) exScc (fun _ fs => fs) (fun _ _ => .refl _) ex_printed
  exact ⟨m, ms, h1, h2⟩

end Ripsrc
