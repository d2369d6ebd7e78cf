import Verif.Props.WholeResume
import Verif.Props.WholeText
/-!
# C78 from the texts that git prints

The graphs and the metadata of the two calls of C78 are no longer given: they are what the readers compute from the output of git.
-/
namespace Ripsrc
open Spec Conc

/-- What git prints for a call that resumes with the commits `N` in its log: a graph that knows the commits `A` (more than `N`: the graph is always read whole), and
metadata records, among those of the whole history (`cs0`), of exactly the commits `N`. -/
structure Spec.PrintedPart {τ : Type} (A N : History) (cs0 : List (CommitRec τ)) (gs : List (Str × List Str)) (cs : List (CommitRec τ)) : Prop where
  hashes : ∀ g ∈ gs, IsHash g.1 ∧ ∀ p ∈ g.2, IsHash p
  consistent : ∀ g ∈ gs, ∀ d ∈ gs, g.1 = d.1 → g = d
  short : ∀ g ∈ gs, (parentsLineOf g).length < 1000000
  graph : ∀ c ∈ A, (c.hash, c.parents) ∈ gs
  among : ∀ r ∈ cs, r ∈ cs0
  once : (cs.map (·.sha)).Nodup
  metas : ∀ c ∈ N, ∃ r ∈ cs, r.sha = c.hash
  only : ∀ r ∈ cs, ∃ c ∈ N, c.hash = r.sha

variable {τ : Type}

theorem builtCommits_getElem? (n : Nat) (cs : List (CommitRec τ)) (i : Nat) :
    (builtCommits n cs)[i]? = cs[i]?.map (fun c => { headerCommit c (n + i) with files := builtFiles c }) := by
  induction cs generalizing n i with
  | nil => simp [builtCommits]
  | cons c cs ih =>
    cases i with
    | zero => simp [builtCommits]
    | succ i =>
      simp only [builtCommits, List.getElem?_cons_succ]
      rw [ih (n + 1) i, show n + 1 + i = n + (i + 1) by omega]

theorem builtMap_get {cs : List (CommitRec τ)} (hd : (cs.map (·.sha)).Nodup) {r : CommitRec τ} (hr : r ∈ cs) :
    ∃ n, GoMap.get (commitMap (builtCommits 1 cs)) r.sha = some { headerCommit r n with files := builtFiles r } := by
  have hsh : (builtCommits 1 cs).map (·.sha) = cs.map (·.sha) := by
    apply List.ext_getElem?
    intro i
    simp only [List.getElem?_map, builtCommits_getElem?]
    cases cs[i]? <;> rfl
  have hd' : ((builtCommits 1 cs).map (·.sha)).Nodup := by rw [hsh]; exact hd
  obtain ⟨i, hi⟩ := List.mem_iff_getElem?.1 hr
  have hb : (builtCommits 1 cs)[i]? = some { headerCommit r (1 + i) with files := builtFiles r } := by rw [builtCommits_getElem?, hi]; rfl
  refine ⟨1 + i, ?_⟩
  unfold commitMap
  rw [commitMap_get _ _ hd']
  cases hf : (builtCommits 1 cs).find? (fun x => decide (x.sha = r.sha)) with
  | none =>
    rw [List.find?_eq_none] at hf
    have := hf _ (List.mem_of_getElem? hb)
    simp [headerCommit] at this
  | some y =>
    have hy1 := List.mem_of_find?_eq_some hf
    have hy2 := List.find?_some hf
    simp only [decide_eq_true_eq] at hy2
    obtain ⟨j, hj⟩ := List.mem_iff_getElem?.1 hy1
    have hjl := (List.getElem?_eq_some_iff.1 hj).1
    have hil := (List.getElem?_eq_some_iff.1 hb).1
    have e1 : ((builtCommits 1 cs).map (·.sha))[j]'(by simpa using hjl) = ((builtCommits 1 cs).map (·.sha))[i]'(by simpa using hil) := by
      simp only [List.getElem_map]
      rw [(List.getElem?_eq_some_iff.1 hj).2, (List.getElem?_eq_some_iff.1 hb).2, hy2]
      rfl
    have e2 := (List.getElem_inj hd').1 e1
    subst e2
    rw [hb] at hj
    cases hj
    rfl

theorem metasPart_printed {H A N : History} {parseDate : Str → Option τ} {gs0 gs : List (Str × List Str)} {cs0 cs : List (CommitRec τ)} (h0 : PrintedFor H parseDate gs0 cs0)
    (h : PrintedPart A N cs0 gs cs) : MetasPart N (commitMap (builtCommits 1 cs0)) (commitMap (builtCommits 1 cs)) := by
  constructor
  · intro c hc
    obtain ⟨r, hr, he⟩ := h.metas c hc
    obtain ⟨n, hn⟩ := builtMap_get h.once hr
    obtain ⟨n0, hn0⟩ := builtMap_get h0.once (h.among r hr)
    rw [he] at hn hn0
    exact ⟨_, _, hn, hn0, rfl⟩
  · intro k hk
    cases hg : GoMap.get (commitMap (builtCommits 1 cs)) k with
    | none => rfl
    | some mc =>
      exfalso
      have hok : ∀ c ∈ cs, c.Ok parseDate := fun c hc => h0.text c (h.among c hc)
      obtain ⟨r, hr, he⟩ := (commitMap_of_reported (builtCommits_length 1 cs)
        (fun i c m hc hm => by have := builtCommits_get 1 cs hok i c m hc hm; rwa [Nat.add_comm] at this) h.once).2 k mc hg
      obtain ⟨c, hc, hce⟩ := h.only r hr
      exact hk c hc (hce.trans he)

variable {H : History} {G : Str → Str → List Str} {env0 : Env} {entries : HCommit → List LogEntry}

/-- **C78 (from the texts).** Some runs have been made over parts of a history, each from the checkpoint of the one before; now `CodeSlice` is called again and resumes.
Let git print the log, the graph and the metadata for this call, and for a call over the whole history. Then the readers give graphs and metadata with which both calls return in
every schedule without error, and the call that resumes delivers what the call over the whole history delivers for its commits; the author and date of its lines are those that
git printed for the commit of the line, if that is in its log, and empty otherwise. -/
theorem C78_from_git_output (hsort : SortsHunks env0.srt) (hord0 : ∀ n k l, (env0.order n k l).Perm l) (hH : History.Ok [] H) (hblame : BlameWorks H G env0.blameOut)
    (hne : H ≠ []) (hent : ∀ c ∈ H, Printed c (entries c)) {P : History} {R R' : Repo} (hchain : Chain H G env0 entries P R) (hrest : Restored R R')
    {env : Env} (hse : SameEnv env0 env) (hord : ∀ n k l, (env.order n k l).Perm l) {B N : History} (hB : ∀ c ∈ B, c ∈ P) (hN : ∀ c ∈ N, c ∈ H) (hN0 : N ≠ [])
    (hA : History.Ok [] (B ++ N)) (hblameA : BlameWorks (B ++ N) G env.blameOut) (hneed : ∀ c ∈ B, HasChildIn N c.hash → ∃ fs, GoMap.get R' c.hash = some fs)
    {opts : RunOpts} {read : Str → Go Repo} (hinit : initCheckpoints opts read = .ok R') (read0 : Str → Go Repo)
    {cl : Classifier} (hl : Lawful cl) (hlic : ∀ path content, LicenseName path → cl.licenseDb path content ≠ .failed)
    (scc : Str → Str → Str → SccRun) (orders0 orders : Nat → Files → Files) (horder0 : ∀ n fs, (orders0 n fs).Perm fs) (horder : ∀ n fs, (orders n fs).Perm fs)
    {parseDate : Str → Option τ} {gs0 gs : List (Str × List Str)} {cs0 cs : List (CommitRec τ)} (hp0 : PrintedFor H parseDate gs0 cs0) (hp : PrintedPart (B ++ N) N cs0 gs cs) :
    ∃ m0 ms0 m ms, parentsRun (parentsText gs0) = .ok m0 ∧ metaRun parseDate (metaLogText cs0) = (ms0, none) ∧
      parentsRun (parentsText gs) = .ok m ∧ metaRun parseDate (metaLogText cs) = (ms, none) ∧
      ∀ order0 order : List (Str × List Str), order0.Perm m0 → order.Perm m →
        let p0 : Pipe τ := { env := env0, opts := {}, read := read0, graph := Graph.newFromMap m0 order0, text := logText (H.flatMap entries), cl := cl, scc := scc,
                             orders := orders0, metas := commitMap ms0 }
        let p : Pipe τ := { env := env, opts := opts, read := read, graph := Graph.newFromMap m order, text := logText (N.flatMap entries), cl := cl, scc := scc,
                            orders := orders, metas := commitMap ms }
        ∃ (w0 w : Repo × Str) (out0 out : List (MetaCommit τ × List (CodeRecord τ))),
          AlwaysReturns p0 (some w0) none (out0.flatMap (·.2)) ∧ AlwaysReturns p (some w) none (out.flatMap (·.2)) ∧
          w.2 = (N.getLast hN0).hash ∧ SameCode H N G (commitMap ms0) out0 out ∧
          ∀ (i j : Nat) (c : HCommit) (mc mc0 : MetaCommit τ) (recs recs0 : List (CodeRecord τ)), N[i]? = some c → H[j]? = some c →
            out[i]? = some (mc, recs) → out0[j]? = some (mc0, recs0) → NoTypeChange H c →
            ∀ rec ∈ recs, rec.skipped = [] ∨ rec.skipped = b!"file was a generated file" → c.Writes H rec.filename → ¬ IsBin H c.hash rec.filename →
              ∀ (k : Nat) (x : CodeLine τ), rec.lines[k]? = some x → Origin H G c.hash rec.filename k x.sha ∧
                ((∃ r ∈ cs, r.sha = x.sha ∧ x.name = dropCR r.authorName ∧ x.email = dropCR r.authorEmail ∧ x.date = some r.date) ∨
                 ((∀ d ∈ N, d.hash ≠ x.sha) ∧ x.name = [] ∧ x.email = [] ∧ x.date = none)) := by
  obtain ⟨m0, hm1, hm2, hm3⟩ := C12_graph_reader gs0 hp0.hashes hp0.consistent hp0.short
  obtain ⟨m, hn1, hn2, hn3⟩ := C12_graph_reader gs hp.hashes hp.consistent hp.short
  have hok : ∀ c ∈ cs, c.Ok parseDate := fun c hc => hp0.text c (hp.among c hc)
  have e0 := metaRun_eq cs0 hp0.text hp0.lines
  have e1 := metaRun_eq cs hok (fun c hc => hp0.lines c (hp.among c hc))
  refine ⟨m0, _, m, _, hm1, e0, hn1, e1, ?_⟩
  intro order0 order ho0 ho p0 p
  have hset0 : Setting env0 H G m0 order0 := ⟨hsort, hord0, hH, hblame, hm2, ho0, fun c hc => (hm3 _ _).2 (hp0.graph c hc)⟩
  have hset : Setting env (B ++ N) G m order := ⟨by rw [hse.1]; exact hsort, hord, hA, hblameA, hn2, ho, fun c hc => (hn3 _ _).2 (hp.graph c hc)⟩
  have hrep0 : ∀ (i : Nat) (c : CommitRec τ) (x : MetaCommit τ), cs0[i]? = some c → (builtCommits 1 cs0)[i]? = some x → Reported c (i + 1) x := by
    intro i c x hc hx
    have := builtCommits_get 1 cs0 hp0.text i c x hc hx
    rwa [Nat.add_comm] at this
  have hm0 : MetasOf H (commitMap (builtCommits 1 cs0)) := metasOf_printed hp0 (builtCommits_length 1 cs0) hrep0
  have hres : Resumes H G env0 env m order P B N R' := ⟨hB, hN, hse, hset, hN0, hneed⟩
  obtain ⟨w0, w, out0, out, k1, k2, k3, k4⟩ := C78_incremental_code hset0 hne hent hchain hrest hres hinit read0 hl hlic scc orders0 orders horder0 horder
    _ _ hm0 (metasPart_printed hp0 hp)
  refine ⟨w0, w, out0, out, k1, k2, k3, k4, ?_⟩
  intro i j c mc mc0 recs recs0 hi hj ho1 ho2 ht rec hrec hsk hw hb k x hx
  obtain ⟨q1, q2, _, q4⟩ := k4.same i j c mc mc0 recs recs0 hi hj ho1 ho2 ht
  obtain ⟨rec0, hrec0, hfn⟩ := List.mem_map.1 (q2.mem_iff.1 (List.mem_map.2 ⟨rec, hrec, rfl⟩))
  have hs := q4 rec hrec rec0 hrec0 hfn.symm
  have hlt : k < rec0.lines.length := by rw [← hs.length]; exact (List.getElem?_eq_some_iff.1 hx).1
  have hx0 : rec0.lines[k]? = some rec0.lines[k] := List.getElem?_eq_getElem hlt
  have hsl := hs.lines k x _ hx hx0
  rw [hs.skipped] at hsk
  rw [hs.filename] at hw hb ⊢
  obtain ⟨_, _, _, hall⟩ := q1.lines rec0 hrec0 hsk hw ht hb
  obtain ⟨horig, mm, hmm, a1, a2, a3⟩ := hall k _ hx0
  refine ⟨by rw [hsl.sha]; exact horig, ?_⟩
  by_cases hnew : ∃ d ∈ N, d.hash = x.sha
  · left
    obtain ⟨d, hd, hde⟩ := hnew
    obtain ⟨r, hr, hre⟩ := hp.metas d hd
    obtain ⟨b1, b2, b3⟩ := hsl.new ⟨d, hd, hde⟩
    obtain ⟨n0, hn0⟩ := builtMap_get hp0.once (hp.among r hr)
    rw [hre, hde, hsl.sha, hmm] at hn0
    cases hn0
    refine ⟨r, hr, hre.trans hde, ?_, ?_, ?_⟩
    · rw [b1, a1]; rfl
    · rw [b2, a2]; rfl
    · rw [b3, a3]; rfl
  · right
    have : ∀ d ∈ N, d.hash ≠ x.sha := fun d hd h => hnew ⟨d, hd, h⟩
    exact ⟨this, hsl.old this⟩

/-! ### Example -/

/-- The metadata that git prints for the second call in the example history, over `c2` to `c5`. -/
theorem ex_printed_part : PrintedPart ([Ex.c1] ++ [Ex.c2, Ex.c3, Ex.c4, Ex.c5]) [Ex.c2, Ex.c3, Ex.c4, Ex.c5] exRecs (Ex.H.map fun c => (c.hash, c.parents)) exRecs.tail := by
  refine ⟨by decide, by decide, by decide, ?_, fun r hr => List.mem_of_mem_tail hr, by decide, ?_, ?_⟩
  · intro c hc; exact List.mem_map.2 ⟨c, hc, rfl⟩
  · intro c hc
    simp only [List.mem_cons, List.not_mem_nil, or_false] at hc
    rcases hc with rfl | rfl | rfl | rfl
    · exact ⟨_, List.mem_cons_self .., rfl⟩
    · exact ⟨_, List.mem_cons_of_mem _ (List.mem_cons_self ..), rfl⟩
    · exact ⟨_, List.mem_cons_of_mem _ (List.mem_cons_of_mem _ (List.mem_cons_self ..)), rfl⟩
    · exact ⟨_, List.mem_cons_of_mem _ (List.mem_cons_of_mem _ (List.mem_cons_of_mem _ (List.mem_cons_self ..))), rfl⟩
  · intro r hr
    simp only [exRecs, List.tail_cons, List.mem_cons, List.not_mem_nil, or_false] at hr
    rcases hr with rfl | rfl | rfl | rfl
    · exact ⟨Ex.c2, by simp, rfl⟩
    · exact ⟨Ex.c3, by simp, rfl⟩
    · exact ⟨Ex.c4, by simp, rfl⟩
    · exact ⟨Ex.c5, by simp, rfl⟩

/-- The example history meets the hypotheses: the call that resumes at `c2` delivers the four commits. -/
example : ∃ (R : Repo) (m : GoMap Str (List Str)) (ms : List (MetaCommit Nat)) (w : Repo × Str) (out : List (MetaCommit Nat × List (CodeRecord Nat))),
    parentsRun (parentsText (Ex.H.map fun c => (c.hash, c.parents))) = .ok m ∧ metaRun exDate (metaLogText exRecs.tail) = (ms, none) ∧
    AlwaysReturns ({ exPipe with opts := { commitFromIncl := b!"c2" }, read := fun _ => .ok R, graph := Graph.newFromMap m m,
                                 text := logText ([Ex.c2, Ex.c3, Ex.c4, Ex.c5].flatMap Ex.entries), metas := commitMap ms } : Pipe Nat) (some w) none (out.flatMap (·.2)) ∧
    w.2 = b!"c5" ∧ out.length = 4 := by
  obtain ⟨R, R2, hr, hch, hres, _⟩ := ex_resume
  obtain ⟨m0, ms0, m, ms, _, _, h3, h4, h5⟩ := C78_from_git_output Ex.setting.sorts Ex.setting.orders Ex.setting.history Ex.setting.blame (by decide) Ex.printed hch hr
    (env := Ex.env) ⟨rfl, rfl⟩ Ex.setting.orders hres.before hres.new hres.nonempty hres.setting.history hres.setting.blame hres.needed (opts := { commitFromIncl := b!"c2" })
    (read := fun _ => .ok R) rfl (fun _ => .ok []) (exCl_lawful false) (fun p c _ => exCl_license p c) exScc (fun _ fs => fs) (fun _ fs => fs)
    (fun _ _ => .refl _) (fun _ _ => .refl _) ex_printed ex_printed_part
  obtain ⟨w0, w, out0, out, _, k2, k3, k4, _⟩ := h5 m0 m (.refl _) (.refl _)
  exact ⟨R, m, ms, w, out, h3, h4, k2, k3, k4.all⟩

end Ripsrc
