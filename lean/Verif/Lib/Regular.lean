import Verif.Lib.Acts
import Verif.Lib.History
import Verif.Props.GitBlame
/-!
# Regular commits keep the stored files right
-/
namespace Ripsrc
open Spec

/-- The stored files of a commit are right (there may be more files than in the tree). -/
def RightFiles (H : History) (G : Str → Str → List Str) (q : Str) (files : Files) : Prop :=
  ∀ p n, H.treeOf q p = some n → ∃ b, GoMap.get files p = some b ∧ Right H G q p n b

theorem meaning_norm (f : FileChange) : f.norm.meaning.pathPrev = f.kind.prev ∧ f.norm.meaning.path = f.kind.next ∧
    f.norm.meaning.isBinary = f.body.isBinary := by
  refine ⟨rfl, rfl, ?_⟩
  simp only [FileChange.meaning, FileChange.norm]
  cases f.body <;> rfl

theorem segHunks_length (o n : Nat) (segs : List (List Str × List BodyLine)) : (segHunks o n segs).length = segs.length := by
  induction segs generalizing o n with
  | nil => rfl
  | cons s segs ih => simp [segHunks, ih]

theorem noPatch_hunks {f : FileChange} (hd : f.kind.isDelete = false) :
    f.norm.meaning.hunks.length = 0 ↔ f.body.noPatch = true := by
  have hd' : f.norm.kind.isDelete = false := hd
  simp only [FileChange.meaning, hd']
  simp only [FileChange.norm]
  cases f.body with
  | empty => simp [Body.hunks, Body.noPatch]
  | binary => simp [Body.hunks, Body.noPatch]
  | text cut heads =>
    simp only [Bool.false_eq_true, if_false, Body.hunks, Body.noPatch, Cut.hunks, segHunks_length, Cut.norm, List.length_map,
      List.isEmpty_iff, List.length_eq_zero_iff]

/-- What the slow path returns. -/
theorem slow_ok {H : History} {G : Str → Str → List Str} {env : Env} {c : HCommit}
    {p : Str} {n : List Str} (hb : c.AsksBlame H p → BlameAnswers G env.blameOut c.hash p n) (ha : c.AsksBlame H p) :
    ∃ b, slowGitBlame env c.hash p = .ok b ∧ b.isBinary = false ∧ b.lines.map (·.line) = n ∧
      b.lines.map (·.commit) = G c.hash p := by
  obtain ⟨es, h1, h2, h3, h4⟩ := hb ha
  refine ⟨{ commit := c.hash, lines := (es.map (fun e => (e.hash, e.content))).map (fun l => ⟨l.2, l.1⟩) }, ?_, rfl, ?_, ?_⟩
  · unfold slowGitBlame
    rw [h2]
    simp only [C41_blame_result es h1, bind, Except.bind]
  · rw [← h3, List.map_map, List.map_map]; rfl
  · rw [← h4, List.map_map, List.map_map]; rfl

theorem right_slow {H : History} {G : Str → Str → List Str} {c p : Str} {n : List Str} {b : Blame} (h1 : b.isBinary = false)
    (h2 : b.lines.map (·.line) = n) (h3 : b.lines.map (·.commit) = G c p) (hbin : ¬ IsBin H c p)
    (ho : ∀ (j : Nat) (o : Str), (G c p)[j]? = some o → Origin H G c p j o) : Right H G c p n b := by
  refine ⟨⟨fun h => (by rw [h1] at h; cases h), fun h => absurd h hbin⟩, fun _ => ?_, fun _ j l hl => ⟨?_, ?_⟩⟩
  · rw [← h2]; simp
  · refine ⟨l.line, ?_, 0, by omega, by simp⟩
    rw [← h2]; simp [hl]
  · apply ho
    rw [← h3]; simp [hl]

/-- The result of applying a change to the right blame of the old file. -/
theorem right_apply {H : History} {G : Str → Str → List Str} {f : FileChange} {o n : List Str} {cut : Cut} (he : Effect f o n cut)
    {c p : Str} (hbin : ¬ IsBin H c p) {ls : List Line} (hl : ls.length = o.length)
    (hsame : ∀ (i : Nat) (l : Line), ls[i]? = some l → ∃ a, o[i]? = some a ∧ SameLine l.line a)
    (hadd : ∀ j, f.body.source j = none → Origin H G c p j c)
    (hkeep : ∀ (i j : Nat) (l : Line), f.body.source j = some i → ls[i]? = some l → Origin H G c p j l.commit) :
    Right H G c p n { commit := c, lines := blameEdit c cut.script ls } := by
  have hlen : (blameEdit c cut.script ls).length = n.length := by
    rw [blameEdit_length c _ _ (by rw [he.oldLen, hl]), he.newLen]
  refine ⟨⟨fun h => (by cases h), fun h => absurd h hbin⟩, fun _ => hlen, fun _ j l hj => ?_⟩
  have hjn : j < n.length := by
    rw [← hlen]
    exact (List.getElem?_eq_some_iff.1 hj).1
  simp only at hj
  cases hs : f.body.source j with
  | none =>
    obtain ⟨⟨t, a, g1, g2, g3⟩, _⟩ := he.added j hjn hs c ls hl
    rw [g1] at hj
    cases hj
    exact ⟨⟨a, g2, g3⟩, hadd j hs⟩
  | some i =>
    obtain ⟨g1, g2, g3⟩ := he.kept j hjn i hs
    rw [(g3 c ls hl).1] at hj
    obtain ⟨a, ha, hsl⟩ := hsame i l hj
    exact ⟨⟨a, by rw [g1]; exact ha, hsl⟩, hkeep i j l hs hj⟩

/-- The tree a regular commit is compared with. -/
def oldTree (H : History) (c : HCommit) : Tree :=
  match c.parents with
  | [] => emptyTree
  | q :: _ => H.treeOf q

section
variable {env : Env} (hsrt : SortsHunks env.srt) {H : History} {G : Str → Str → List Str} (hH : History.Ok [] H)
  {c : HCommit} (hc : c ∈ H) (hreg : c.Regular) {cs : List FileChange} (hcs : c.diffs = [cs])
  (hd : Describes (oldTree H c) c.tree cs) {repo : Repo}
  (hrepo : ∀ q ∈ c.parents, ∃ fs, GoMap.get repo q = some fs ∧ RightFiles H G q fs)
include hsrt hH hc hreg hcs hd hrepo

theorem regAct_ok {f : FileChange} (hf : f ∈ cs) {ch : Str} (hch : parseDiff ch = .ok f.norm.meaning)
    (hbl : ∀ n, c.tree f.kind.next = some n → c.AsksBlame H f.kind.next → BlameAnswers G env.blameOut c.hash f.kind.next n) :
    ∃ a, regAct env c.hash c.parents repo ch = .ok a ∧
      (f.kind.next = [] → a = .report f.kind.prev (if f.body.isBinary then blameBinaryFile c.hash else { commit := c.hash, lines := [] })) ∧
      (f.kind.next ≠ [] → ∃ b n, a = .both f.kind.next b ∧ c.tree f.kind.next = some n ∧ Right H G c.hash f.kind.next n b) := by
  have hok := hd.ok f hf
  obtain ⟨m1, m2, m3⟩ := meaning_norm f
  unfold regAct
  simp only [hch, bind, Except.bind, m1, m2, m3]
  by_cases hn : f.kind.next = []
  · simp only [hn, if_true]
    cases f.body.isBinary <;> exact ⟨_, rfl, fun _ => rfl, fun h => absurd rfl h⟩
  · simp only [hn, if_false]
    have hco : changeOf cs f.kind.next = some f := changeOf_of_mem hd.once hf hn
    have hdel : f.kind.isDelete = false := by
      cases h : f.kind.isDelete with
      | false => rfl
      | true => exact absurd ((next_nil_iff hok).2 h) hn
    obtain ⟨n, htree⟩ := Option.isSome_iff_exists.1 (hd.next f hf hn)
    have hcontent : content c.tree f.kind.next = n := by simp [content, hn, htree]
    by_cases hbin : f.body = .binary
    · have hb : f.body.isBinary = true := by rw [hbin]; rfl
      simp only [hb, if_true]
      refine ⟨_, rfl, fun h => h.elim, fun _ => ⟨_, n, rfl, htree, ?_⟩⟩
      refine ⟨⟨fun _ => .change hc hreg hcs hn hco hbin, fun _ => rfl⟩, fun h => (by cases h), fun h => (by cases h)⟩
    · have hb : f.body.isBinary = false := by cases h : f.body <;> simp_all [Body.isBinary]
      simp only [hb, Bool.false_eq_true, if_false]
      have htakes := hd.body f hf
      rw [hcontent] at htakes
      obtain ⟨cut, he⟩ := change_effect hok hdel htakes hbin
      have hperm : f.norm.meaning.hunks.Perm cut.hunks := by rw [he.hunks]
      by_cases hprev : f.kind.prev = []
      · -- created file
        have hcont : content (oldTree H c) f.kind.prev = [] := by simp [content, hprev]
        rw [hcont] at he
        have hnb : ¬ IsBin H c.hash f.kind.next := by
          intro h
          rcases isBin_regular hH hc hreg hcs h with ⟨g, hg, h | ⟨q, _, h, _⟩⟩ | ⟨h, _⟩
          · rw [hco] at hg; cases hg; exact hbin h
          · rw [hco] at hg; cases hg; exact h hprev
          · rw [hco] at h; cases h
        have hrb : renamedBinary repo c.parents f.norm.meaning = .ok none := by
          unfold renamedBinary
          rw [if_neg (by rw [m1]; simp [hprev])]
        have hpb : parentBlameOf repo c.parents f.norm.meaning = .ok none := by
          unfold parentBlameOf
          rw [if_pos (by rw [m1]; exact hprev)]
        have happ := apply_script env.srt hsrt cut he.ok { commit := [], lines := [] } rfl (by rw [he.oldLen]; rfl) f.norm.meaning
          he.notBin hperm c.hash
        simp only [hrb, hpb, newBlame, happ]
        refine ⟨_, rfl, fun h => h.elim, fun _ => ⟨_, n, rfl, htree, ?_⟩⟩
        apply right_apply he hnb rfl
        · intro i l h; simp at h
        · intro j hs
          exact .added hc hreg hcs hnb hco (fun h => absurd hprev h) hs
        · intro i j l _ h; simp at h
      · -- changed or renamed file
        obtain ⟨o, hold⟩ := Option.isSome_iff_exists.1 (hd.prev f hf hprev)
        have hcont : content (oldTree H c) f.kind.prev = o := by simp [content, hprev, hold]
        rw [hcont] at he
        obtain ⟨q, hq⟩ : ∃ q, c.parents = [q] := by
          unfold HCommit.Regular at hreg
          cases hp : c.parents with
          | nil => simp [oldTree, hp, emptyTree] at hold
          | cons q ps =>
            rw [hp] at hreg
            cases ps with
            | nil => exact ⟨q, rfl⟩
            | cons _ _ => simp at hreg
        have hot : oldTree H c = H.treeOf q := by simp [oldTree, hq]
        rw [hot] at hold
        obtain ⟨pf, hpf, hright⟩ := hrepo q (by rw [hq]; simp)
        obtain ⟨pb, hpb, hr⟩ := hright _ _ hold
        have hmust : repo.getFileMust q f.kind.prev = .ok pb := by unfold Repo.getFileMust; rw [hpf]; simp only; rw [hpb]
        have hopt : repo.getFileOptional q f.kind.prev = .ok (some pb) := by unfold Repo.getFileOptional; rw [hpf]; simp only; rw [hpb]
        have hpbo : parentBlameOf repo c.parents f.norm.meaning = .ok (some pb) := by
          unfold parentBlameOf
          rw [if_neg (by rw [m1]; exact hprev), hq]
          exact hopt
        by_cases hmoved : f.kind.prev ≠ f.kind.next ∧ f.body.noPatch = true ∧ pb.isBinary = true
        · obtain ⟨k1, k2, k3⟩ := hmoved
          have hrb : renamedBinary repo c.parents f.norm.meaning = .ok (some pb) := by
            unfold renamedBinary
            rw [if_pos (by rw [m1, m2]; exact ⟨hprev, k1⟩), hq]
            simp only [(noPatch_hunks hdel).2 k2, if_true, m1, hmust, bind, Except.bind, k3]
          simp only [hrb]
          refine ⟨_, rfl, fun h => h.elim, fun _ => ⟨_, n, rfl, htree, ?_⟩⟩
          have hqbin : IsBin H q f.kind.prev := hr.binary.1 k3
          refine ⟨⟨fun _ => .moved hc hq hcs hn hco hprev k1 k2 hqbin, fun _ => k3⟩, fun h => (by rw [k3] at h; cases h), fun h => (by rw [k3] at h; cases h)⟩
        · have hrb : renamedBinary repo c.parents f.norm.meaning = .ok none := by
            unfold renamedBinary
            rw [m1, m2, hq]
            by_cases h1 : f.kind.prev ≠ f.kind.next
            · rw [if_pos ⟨hprev, h1⟩]
              simp only [hmust]
              by_cases h2 : f.body.noPatch = true
              · rw [if_pos ((noPatch_hunks hdel).2 h2)]
                have h3 : pb.isBinary = false := by
                  cases h : pb.isBinary with
                  | false => rfl
                  | true => exact absurd ⟨h1, h2, h⟩ hmoved
                simp [bind, Except.bind, h3]
              · rw [if_neg (fun h => h2 ((noPatch_hunks hdel).1 h))]
            · rw [if_neg (fun h => h1 h.2)]
          have hnb : ¬ IsBin H c.hash f.kind.next := by
            intro h
            rcases isBin_regular hH hc hreg hcs h with ⟨g, hg, h | ⟨q', h0, h1, h2, h3, h4⟩⟩ | ⟨h, _⟩
            · rw [hco] at hg; cases hg; exact hbin h
            · rw [hco] at hg; cases hg
              rw [hq] at h0; cases h0
              exact hmoved ⟨h2, h3, hr.binary.2 h4⟩
            · rw [hco] at h; cases h
          simp only [hrb, hpbo, newBlame]
          cases hpbin : pb.isBinary with
          | true =>
            obtain ⟨b, s1, s2, s3, s4⟩ := slow_ok (hbl n htree) ⟨hn, _, _, _, hq, hcs, hco, hprev, hr.binary.1 hpbin, hnb⟩
            simp only [if_true, m2, s1]
            refine ⟨_, rfl, fun h => h.elim, fun _ => ⟨_, n, rfl, htree, ?_⟩⟩
            exact right_slow s2 s3 s4 hnb (fun j o' ho =>
              .blamed hc hq hcs hnb hco hprev (hr.binary.1 hpbin) ho)
          | false =>
            have hlen := hr.length hpbin
            have hqb : ¬ IsBin H q f.kind.prev := fun h => (by rw [hr.binary.2 h] at hpbin; cases hpbin)
            have happ := apply_script env.srt hsrt cut he.ok pb hpbin (by rw [he.oldLen, hlen]) f.norm.meaning
              he.notBin hperm c.hash
            simp only [Bool.false_eq_true, if_false, happ]
            refine ⟨_, rfl, fun h => h.elim, fun _ => ⟨_, n, rfl, htree, ?_⟩⟩
            apply right_apply he hnb hlen
            · intro i l h; exact (hr.line hpbin i l h).1
            · intro j hs
              refine .added hc hreg hcs hnb hco ?_ hs
              intro _ q' hq'
              rw [hq] at hq'
              simp only [List.mem_singleton] at hq'
              subst hq'
              exact hqb
            · intro i j l hs h
              exact .kept hc hq hcs hnb hco hprev hqb hs (hr.line hpbin i l h).2

end

/-- What processing the commit `c` has to do. -/
structure CommitOk (H : History) (G : Str → Str → List Str) (c : HCommit) (repo repo' : Repo) (res : Result) : Prop where
  commit : res.commit = c.hash
  same : SameBut c.hash repo repo'
  files : ∃ fs, GoMap.get repo' c.hash = some fs ∧ RightFiles H G c.hash fs ∧
    ∀ p, c.Writes H p → (c.Regular ∨ ¬ c.Deletes p) → GoMap.get res.files p = GoMap.get fs p
  paths : ∀ p, GoMap.has res.files p = true ↔ c.Writes H p ∨ c.Deletes p
  removed : ∀ p, c.Deletes p → ¬ c.Writes H p → ∃ b, GoMap.get res.files p = some b ∧ b.commit = c.hash ∧ b.lines = [] ∧
    (b.isBinary = true ↔ c.Regular ∧ c.DeletesBinary p)

/-- The files stored for a regular commit, from those of the parent. -/
def regStored (env : Env) (c : HCommit) (changes : List Str) (repo : Repo) (p : Str) : Option Blame :=
  let acts := changes.filterMap (fun ch => (regAct env c.hash c.parents repo ch).toOption)
  if p ∈ (acts.filterMap Act.reported).map Prod.fst then GoMap.get (putAll ([] : Files) (acts.filterMap Act.kept)) p
  else match c.parents with
    | [] => none
    | q :: _ => GoMap.get ((GoMap.get repo q).getD []) p

theorem filterMap_map_of {α β : Type} (f : α → Option β) (g : α → β) (l : List α) (h : ∀ x ∈ l, f x = some (g x)) :
    l.filterMap f = l.map g := by
  induction l with
  | nil => rfl
  | cons a l ih => simp [h a (by simp), ih (fun x hx => h x (by simp [hx]))]

/-- The texts `changes` are the changes `cs` as the log parser delivers them. -/
def ChangesOf (changes : List Str) (cs : List FileChange) : Prop :=
  changes.map parseDiff = cs.map (fun f => .ok f.norm.meaning)

/-- Matching up the two lists. -/
theorem changesOf_pairs {changes : List Str} {cs : List FileChange} (h : ChangesOf changes cs) :
    ∃ l : List (Str × FileChange), l.map Prod.fst = changes ∧ l.map Prod.snd = cs ∧
      ∀ x ∈ l, parseDiff x.1 = .ok x.2.norm.meaning := by
  unfold ChangesOf at h
  induction changes generalizing cs with
  | nil =>
    cases cs with
    | nil => exact ⟨[], rfl, rfl, by simp⟩
    | cons f cs => simp at h
  | cons a changes ih =>
    cases cs with
    | nil => simp at h
    | cons f cs =>
      simp only [List.map_cons, List.cons.injEq] at h
      obtain ⟨l, h1, h2, h3⟩ := ih h.2
      refine ⟨(a, f) :: l, by simp [h1], by simp [h2], ?_⟩
      intro x hx
      rcases List.mem_cons.1 hx with rfl | hx
      · exact h.1
      · exact h3 x hx

theorem addCommit_get (r : Repo) (h : Str) : GoMap.get (r.addCommit h) h = some [] := GoMap.get_set_self _ _ _

theorem addCommit_same (r : Repo) (h : Str) : SameBut h r (r.addCommit h) := sameBut_set _ _ _

theorem writes_regular {H : History} {c : HCommit} (hreg : c.Regular) {cs : List FileChange} (hcs : c.diffs = [cs]) (p : Str) :
    c.Writes H p ↔ p ≠ [] ∧ ∃ f, changeOf cs p = some f := by
  unfold HCommit.Writes
  rw [hcs]
  constructor
  · rintro ⟨h1, ⟨x, hx, h2⟩, _⟩
    simp only [List.mem_singleton] at hx
    subst hx
    exact ⟨h1, Option.ne_none_iff_exists'.1 h2⟩
  · rintro ⟨h1, f, hf⟩
    exact ⟨h1, ⟨cs, by simp, by rw [hf]; simp⟩, Or.inl hreg⟩

theorem deletes_regular {c : HCommit} {cs : List FileChange} (hcs : c.diffs = [cs]) (p : Str) :
    c.Deletes p ↔ ∃ f ∈ cs, f.kind.next = [] ∧ f.kind.prev = p := by
  unfold HCommit.Deletes
  rw [hcs]
  simp

theorem regular_ok {env : Env} (hsrt : SortsHunks env.srt) (horder : ∀ n k l, (env.order n k l).Perm l)
    {H : History} {G : Str → Str → List Str} (hH : History.Ok [] H)
    {a r : History} {c : HCommit} (hsplit : H = a ++ c :: r) (hreg : c.Regular)
    {cs : List FileChange} (hcs : c.diffs = [cs]) {changes : List Str} (hch : ChangesOf changes cs) {repo : Repo}
    (hrepo : ∀ q ∈ c.parents, ∃ fs, GoMap.get repo q = some fs ∧ RightFiles H G q fs)
    (hbw : c.Answered H G env.blameOut) (n : Nat) :
    ∃ repo' res, processRegularCommit env n repo c.hash c.parents changes = .ok (repo', res) ∧ CommitOk H G c repo repo' res ∧
      ∀ p, repo'.getFileOptional c.hash p = .ok (regStored env c changes repo p) := by
  have hc : c ∈ H := by rw [hsplit]; simp
  have hcok : c.Ok a := history_ok_at (r := r) (hsplit ▸ hH)
  have hself : c.hash ∉ c.parents := by
    intro h
    obtain ⟨x, hx, he⟩ := hcok.parentsKnown _ h
    exact hcok.new x hx he
  have hd : Describes (oldTree H c) c.tree cs := by
    unfold oldTree
    cases hp : c.parents with
    | nil =>
      obtain ⟨cs', h1, h2⟩ := hcok.root hp
      rw [hcs] at h1
      cases h1
      exact h2
    | cons q ps =>
      have := hcok.diffs (q, cs) (by rw [hp, hcs]; simp)
      simp only at this
      rw [treeOf_prefix hH hsplit (hcok.parentsKnown q (by rw [hp]; simp))] at this
      exact this
  obtain ⟨l, hl1, hl2, hl3⟩ := changesOf_pairs hch
  have hmem : ∀ x ∈ l, x.2 ∈ cs := fun x hx => hl2 ▸ List.mem_map_of_mem hx
  have hrepo0 : ∀ q ∈ c.parents, ∃ fs, GoMap.get (repo.addCommit c.hash) q = some fs ∧ RightFiles H G q fs := by
    intro q hq
    rw [addCommit_same repo c.hash q (by rintro rfl; exact hself hq)]
    exact hrepo q hq
  have hact := fun (x : Str × FileChange) (hx : x ∈ l) =>
    regAct_ok hsrt hH hc hreg hcs hd hrepo0 (hmem x hx) (hl3 x hx) (hbw _)
  let act : Str × FileChange → Act := fun x =>
    match regAct env c.hash c.parents (repo.addCommit c.hash) x.1 with
    | .ok a => a
    | .error _ => .report [] { commit := [], lines := [] }
  have hact' : ∀ x ∈ l, regAct env c.hash c.parents (repo.addCommit c.hash) x.1 = .ok (act x) := by
    intro x hx
    obtain ⟨b, hb, _⟩ := hact x hx
    simp only [act, hb]
  have hdel : ∀ x ∈ l, x.2.kind.next = [] → ∃ b : Blame, act x = .report x.2.kind.prev b ∧ b.commit = c.hash ∧ b.lines = [] ∧
      b.isBinary = x.2.body.isBinary := by
    intro x hx h
    obtain ⟨b, hb, h1, _⟩ := hact x hx
    have : act x = b := by simp only [act, hb]
    rw [this, h1 h]
    cases x.2.body.isBinary <;> exact ⟨_, rfl, rfl, rfl, rfl⟩
  have hput : ∀ x ∈ l, x.2.kind.next ≠ [] → ∃ b n, act x = .both x.2.kind.next b ∧ c.tree x.2.kind.next = some n ∧
      Right H G c.hash x.2.kind.next n b := by
    intro x hx h
    obtain ⟨b, hb, _, h2⟩ := hact x hx
    have : act x = b := by simp only [act, hb]
    rw [this]
    exact h2 h
  obtain ⟨st, s1, s2, s3, s4⟩ := fold_acts c.hash (fun r (x : Str × FileChange) => regAct env c.hash c.parents r x.1) c.parents hself
    (fun r r' h x => regAct_congr env c.hash c.parents r r' h x.1) act l (repo.addCommit c.hash, []) [] (addCommit_get _ _) hact'
  have hfold : changes.foldlM (regularChange env c.hash c.parents) (repo.addCommit c.hash, []) = .ok st := by
    rw [← s1, ← hl1, List.foldlM_map]
    congr 1
    funext st x
    exact regularChange_eq _ _ _ _ _
  -- what is kept and reported for the changes
  have hK : ∀ p b, (p, b) ∈ l.filterMap (fun x => (act x).kept) → ∃ n, c.tree p = some n ∧ Right H G c.hash p n b := by
    intro p b h
    obtain ⟨x, hx, he⟩ := List.mem_filterMap.1 h
    by_cases hn : x.2.kind.next = []
    · obtain ⟨b', hb', _⟩ := hdel x hx hn
      rw [hb'] at he; cases he
    · obtain ⟨b', n, hb', ht, hr⟩ := hput x hx hn
      rw [hb'] at he; cases he
      exact ⟨n, ht, hr⟩
  have hKmem : ∀ p, p ≠ [] → ∀ f, changeOf cs p = some f → p ∈ (l.filterMap (fun x => (act x).kept)).map Prod.fst := by
    intro p hp f hf
    obtain ⟨h1, h2⟩ := changeOf_some hf
    obtain ⟨x, hx, rfl⟩ := List.mem_map.1 (hl2 ▸ h1)
    obtain ⟨b, n, hb, _⟩ := hput x hx (by rw [h2]; exact hp)
    refine List.mem_map.2 ⟨(p, b), List.mem_filterMap.2 ⟨x, hx, ?_⟩, rfl⟩
    rw [hb, h2]; rfl
  have hKmem' : ∀ p, p ∈ (l.filterMap (fun x => (act x).kept)).map Prod.fst → p ≠ [] ∧ ∃ f, changeOf cs p = some f := by
    intro p h
    obtain ⟨⟨p', b⟩, h', rfl⟩ := List.mem_map.1 h
    obtain ⟨x, hx, he⟩ := List.mem_filterMap.1 h'
    by_cases hn : x.2.kind.next = []
    · obtain ⟨b', hb', _⟩ := hdel x hx hn
      rw [hb'] at he; cases he
    · obtain ⟨b', n, hb', ht, hr⟩ := hput x hx hn
      rw [hb'] at he; cases he
      exact ⟨hn, x.2, changeOf_of_mem hd.once (hmem x hx) hn⟩
  have hRmem : ∀ p, p ∈ (l.filterMap (fun x => (act x).reported)).map Prod.fst ↔
      (p ≠ [] ∧ ∃ f, changeOf cs p = some f) ∨ ∃ f ∈ cs, f.kind.next = [] ∧ f.kind.prev = p := by
    intro p
    constructor
    · intro h
      obtain ⟨⟨p', b⟩, h', rfl⟩ := List.mem_map.1 h
      obtain ⟨x, hx, he⟩ := List.mem_filterMap.1 h'
      by_cases hn : x.2.kind.next = []
      · obtain ⟨b', hb', _⟩ := hdel x hx hn
        rw [hb'] at he; cases he
        exact Or.inr ⟨x.2, hmem x hx, hn, rfl⟩
      · obtain ⟨b', n, hb', ht, hr⟩ := hput x hx hn
        rw [hb'] at he; cases he
        exact Or.inl ⟨hn, x.2, changeOf_of_mem hd.once (hmem x hx) hn⟩
    · rintro (⟨hp, f, hf⟩ | ⟨f, hf, h1, h2⟩)
      · obtain ⟨h1, h2⟩ := changeOf_some hf
        obtain ⟨x, hx, rfl⟩ := List.mem_map.1 (hl2 ▸ h1)
        obtain ⟨b, n, hb, _⟩ := hput x hx (by rw [h2]; exact hp)
        refine List.mem_map.2 ⟨(p, b), List.mem_filterMap.2 ⟨x, hx, ?_⟩, rfl⟩
        rw [hb, h2]; rfl
      · obtain ⟨x, hx, rfl⟩ := List.mem_map.1 (hl2 ▸ hf)
        obtain ⟨b, hb, _⟩ := hdel x hx h1
        refine List.mem_map.2 ⟨(p, b), List.mem_filterMap.2 ⟨x, hx, ?_⟩, rfl⟩
        rw [hb, h2]; rfl
  have hpaths : ∀ p, GoMap.has st.2 p = true ↔ c.Writes H p ∨ c.Deletes p := by
    intro p
    rw [writes_regular hreg hcs, deletes_regular hcs, ← hRmem, GoMap.has_iff, s4, putAll_keys]
    simp [GoMap.keys]
  have hremoved : ∀ p, c.Deletes p → ¬ c.Writes H p → ∃ b : Blame, GoMap.get st.2 p = some b ∧ b.commit = c.hash ∧ b.lines = [] ∧
      (b.isBinary = true ↔ c.Regular ∧ c.DeletesBinary p) := by
    intro p h1 h2
    have hm : p ∈ (l.filterMap (fun x => (act x).reported)).map Prod.fst :=
      (hRmem p).2 (Or.inr ((deletes_regular hcs p).1 h1))
    obtain ⟨v, hv, hg⟩ := putAll_mem ([] : Files) _ p hm
    rw [s4]
    refine ⟨v, hg, ?_⟩
    obtain ⟨x, hx, he⟩ := List.mem_filterMap.1 hv
    by_cases hn : x.2.kind.next = []
    · obtain ⟨b', hb', k1, k2, k3⟩ := hdel x hx hn
      rw [hb'] at he; cases he
      refine ⟨k1, k2, ?_⟩
      rw [k3]
      constructor
      · intro hbin
        refine ⟨hreg, cs, by rw [hcs]; simp, x.2, hmem x hx, hn, rfl, ?_⟩
        cases hb : x.2.body <;> simp_all [Body.isBinary]
      · rintro ⟨_, cs', hcs', f, hf, g1, g2, g3⟩
        rw [hcs] at hcs'
        simp only [List.mem_singleton] at hcs'
        subst hcs'
        have : f = x.2 := nodup_map_inj hd.once hf (hmem x hx) (by simp [FileChange.target, g1, hn, g2])
        rw [← this, g3]; rfl
    · obtain ⟨b', n, hb', ht, hr⟩ := hput x hx hn
      rw [hb'] at he; cases he
      exact absurd ((writes_regular hreg hcs _).2 ⟨hn, x.2, changeOf_of_mem hd.once (hmem x hx) hn⟩) h2
  -- the value stored for a changed file is the one reported
  have hvalue : ∀ p, c.Writes H p → GoMap.get st.2 p = GoMap.get (putAll ([] : Files) (l.filterMap (fun x => (act x).kept))) p := by
    intro p hw
    obtain ⟨hp, f, hf⟩ := (writes_regular hreg hcs p).1 hw
    obtain ⟨h1, h2⟩ := changeOf_some hf
    obtain ⟨x, hx, hxf⟩ := List.mem_map.1 (hl2 ▸ h1)
    obtain ⟨l1, l2, hl⟩ := List.append_of_mem hx
    obtain ⟨b, n, hb, _⟩ := hput x hx (by rw [hxf, h2]; exact hp)
    rw [hxf, h2] at hb
    have hcs' : cs = l1.map Prod.snd ++ f :: l2.map Prod.snd := by rw [← hl2, hl, ← hxf]; simp
    have hlater : ∀ y ∈ l2, ∀ e, ((act y).kept = some e ∨ (act y).reported = some e) → e.1 ≠ p := by
      intro y hy e he hep
      have hyl : y ∈ l := by rw [hl]; simp [hy]
      by_cases hn : y.2.kind.next = []
      · obtain ⟨b', hb', _⟩ := hdel y hyl hn
        rw [hb'] at he
        rcases he with he | he
        · cases he
        · cases he
          have := hd.order
          rw [hcs', List.pairwise_append] at this
          exact (List.pairwise_cons.1 this.2.1).1 y.2 (List.mem_map_of_mem hy) hn (by rw [h2]; exact hep.symm)
      · obtain ⟨b', n', hb', _⟩ := hput y hyl hn
        rw [hb'] at he
        have he' : e = (y.2.kind.next, b') := by
          rcases he with he | he <;> · cases he; rfl
        have := hd.once
        rw [hcs', List.map_append, List.map_cons, List.nodup_append] at this
        refine (List.nodup_cons.1 this.2.1).1 (List.mem_map.2 ⟨y.2, List.mem_map_of_mem hy, ?_⟩)
        rw [he'] at hep
        unfold FileChange.target
        rw [if_neg hn, if_neg (by rw [h2]; exact hp), h2]
        exact congrArg _ hep
    rw [s4, hl]
    simp only [List.filterMap_append, List.filterMap_cons, hb, Act.kept, Act.reported]
    rw [putAll_last, putAll_last]
    · intro hm
      obtain ⟨e, he, rfl⟩ := List.mem_map.1 hm
      obtain ⟨y, hy, hye⟩ := List.mem_filterMap.1 he
      exact hlater y hy e (Or.inl hye) rfl
    · intro hm
      obtain ⟨e, he, rfl⟩ := List.mem_map.1 hm
      obtain ⟨y, hy, hye⟩ := List.mem_filterMap.1 he
      exact hlater y hy e (Or.inr hye) rfl
  have hacts : changes.filterMap (fun ch => (regAct env c.hash c.parents repo ch).toOption) = l.map act := by
    rw [← hl1, List.filterMap_map]
    apply filterMap_map_of
    intro x hx
    have := regAct_congr env c.hash c.parents repo (repo.addCommit c.hash)
      (fun q hq => addCommit_same repo c.hash q (by rintro rfl; exact hself hq)) x.1
    simp only [Function.comp]
    rw [← this, hact' x hx]
    rfl
  have hstored : ∀ p, regStored env c changes repo p = if GoMap.has st.2 p then
      GoMap.get (putAll ([] : Files) (l.filterMap (fun x => (act x).kept))) p
      else match c.parents with
        | [] => none
        | q :: _ => GoMap.get ((GoMap.get repo q).getD []) p := by
    intro p
    unfold regStored
    simp only [hacts, List.filterMap_map]
    have : (p ∈ (l.filterMap (Act.reported ∘ act)).map Prod.fst) ↔ GoMap.has st.2 p = true := by
      rw [GoMap.has_iff, s4, putAll_keys]
      simp only [GoMap.keys, List.map_nil, List.not_mem_nil, false_or]
      rfl
    by_cases hh : GoMap.has st.2 p = true
    · rw [if_pos hh, if_pos (this.2 hh)]; rfl
    · rw [if_neg hh, if_neg (fun h => hh (this.1 h))]
  have hKsub : ∀ p, GoMap.has st.2 p ≠ true → GoMap.get (putAll ([] : Files) (l.filterMap (fun x => (act x).kept))) p = none := by
    intro p hh
    rw [putAll_not_mem]
    · rfl
    · intro hm
      exact hh ((hpaths p).2 (Or.inl ((writes_regular hreg hcs p).2 (hKmem' p hm))))
  unfold processRegularCommit
  have hlen : ¬ c.parents.length > 1 := by unfold HCommit.Regular at hreg; omega
  rw [if_neg hlen, hfold]
  simp only [bind, Except.bind]
  cases hp : c.parents with
  | nil =>
    refine ⟨st.1, _, rfl, ⟨rfl, (addCommit_same _ _).trans s3, ⟨_, s2, ?_, ?_⟩, hpaths, hremoved⟩, ?_⟩
    · intro p nl ht
      rw [treeOf_of_mem hH hc] at ht
      have hf : changeOf cs p ≠ none := by
        intro h
        have := hd.rest p (by rw [ht]; rfl) h
        simp [oldTree, hp, emptyTree, ht] at this
      obtain ⟨f, hf⟩ := Option.ne_none_iff_exists'.1 hf
      have hpne : p ≠ [] := (hcok.paths p (by rw [ht]; rfl)).1
      obtain ⟨v, hv, hg⟩ := putAll_mem ([] : Files) _ p (hKmem p hpne f hf)
      obtain ⟨n', ht', hr⟩ := hK p v hv
      rw [ht] at ht'; cases ht'
      exact ⟨v, hg, hr⟩
    · intro p hw _
      exact hvalue p hw
    · intro p
      unfold Repo.getFileOptional
      rw [s2, hstored p]
      simp only
      by_cases hh : GoMap.has st.2 p = true
      · rw [if_pos hh]
      · rw [if_neg hh, hKsub p hh, hp]
  | cons q ps =>
    have hps : ps = [] := by
      unfold HCommit.Regular at hreg
      rw [hp] at hreg
      cases ps with
      | nil => rfl
      | cons _ _ => simp at hreg
    subst hps
    have hot : oldTree H c = H.treeOf q := by simp [oldTree, hp]
    have hqne : q ≠ c.hash := by rintro rfl; exact hself (by rw [hp]; simp)
    obtain ⟨pf, hpf, hright⟩ := hrepo0 q (by rw [hp]; simp)
    have hpf' : GoMap.get st.1 q = some pf := by rw [s3 q hqne]; exact hpf
    have hmust : st.1.getCommitMust q = .ok pf := by unfold Repo.getCommitMust; rw [hpf']
    obtain ⟨r', r1, r2, r3⟩ := copy_loop c.hash q hqne st.2 pf (env.order n 0 (GoMap.keys pf)) st.1 _ s2 hpf'
      (fun x hx => (horder _ _ _).mem_iff.1 hx)
    simp only [hmust, r1]
    refine ⟨r', _, rfl, ⟨rfl, ((addCommit_same _ _).trans s3).trans r3, ⟨_, r2, ?_, ?_⟩, hpaths, hremoved⟩, ?_⟩
    · intro p nl ht
      rw [treeOf_of_mem hH hc] at ht
      have hpne : p ≠ [] := (hcok.paths p (by rw [ht]; rfl)).1
      cases hf : changeOf cs p with
      | some f =>
        have hhas : GoMap.has st.2 p = true := (hpaths p).2 (Or.inl ((writes_regular hreg hcs p).2 ⟨hpne, f, hf⟩))
        rw [putAll_not_mem]
        · obtain ⟨v, hv, hg⟩ := putAll_mem ([] : Files) _ p (hKmem p hpne f hf)
          obtain ⟨n', ht', hr⟩ := hK p v hv
          rw [ht] at ht'; cases ht'
          exact ⟨v, hg, hr⟩
        · intro hm
          obtain ⟨e, he, rfl⟩ := List.mem_map.1 hm
          obtain ⟨y, hy, hye⟩ := List.mem_filterMap.1 he
          split at hye
          · cases hye
          · rename_i hno
            obtain ⟨b, _, rfl⟩ := Option.map_eq_some_iff.1 hye
            exact hno hhas
      | none =>
        have hold := hd.rest p (by rw [ht]; rfl) hf
        rw [hot, ht] at hold
        obtain ⟨b, hb, hr⟩ := hright p nl hold
        have hhas : ¬ GoMap.has st.2 p = true := by
          rw [hpaths p, writes_regular hreg hcs, deletes_regular hcs]
          rintro (⟨_, f, h⟩ | ⟨f, hf', h1, h2⟩)
          · rw [hf] at h; cases h
          · have := hd.gone f hf' h1 (by rw [h2, ht]; rfl)
            rw [h2, hf] at this
            cases this
        have hin : p ∈ env.order n 0 (GoMap.keys pf) :=
          (horder _ _ _).mem_iff.2 ((GoMap.get_isSome_iff pf p).1 (by rw [hb]; rfl))
        obtain ⟨v, hv, hg⟩ := putAll_mem (putAll ([] : Files) (l.filterMap (fun x => (act x).kept))) ((env.order n 0 (GoMap.keys pf)).filterMap
          (fun x => if GoMap.has st.2 x then none else (GoMap.get pf x).map (fun b => (x, b)))) p (by
            refine List.mem_map.2 ⟨(p, b), List.mem_filterMap.2 ⟨p, hin, ?_⟩, rfl⟩
            rw [if_neg hhas, hb]; rfl)
        have hvb : v = b := by
          obtain ⟨y, hy, hye⟩ := List.mem_filterMap.1 hv
          split at hye
          · cases hye
          · obtain ⟨b', hb', he⟩ := Option.map_eq_some_iff.1 hye
            cases he
            rw [hb] at hb'; cases hb'; rfl
        subst hvb
        refine ⟨v, hg, ?_⟩
        have hbin : IsBin H c.hash p ↔ IsBin H q p := by
          constructor
          · intro h
            rcases isBin_regular hH hc hreg hcs h with ⟨f, h, _⟩ | ⟨_, q', h1, h2⟩
            · rw [hf] at h; cases h
            · rw [hp] at h1; cases h1; exact h2
          · intro h
            exact .untouched hc hp hcs hf h
        refine ⟨hr.binary.trans hbin.symm, hr.length, fun hv j ln hj => ⟨(hr.line hv j ln hj).1, ?_⟩⟩
        refine .untouched hc hp hcs ?_ hf (hr.line hv j ln hj).2
        intro h
        rw [hbin, ← hr.binary, hv] at h
        cases h
    · intro p hw _
      rw [hvalue p hw]
      refine (putAll_not_mem _ _ _ ?_).symm
      intro hm
      obtain ⟨e, he, rfl⟩ := List.mem_map.1 hm
      obtain ⟨y, hy, hye⟩ := List.mem_filterMap.1 he
      split at hye
      · cases hye
      · rename_i hno
        obtain ⟨b, _, rfl⟩ := Option.map_eq_some_iff.1 hye
        exact hno ((hpaths y).2 (Or.inl hw))
    · intro p
      unfold Repo.getFileOptional
      rw [r2, hstored p, hp]
      simp only
      congr 1
      by_cases hh : GoMap.has st.2 p = true
      · rw [if_pos hh]
        apply putAll_not_mem
        intro hm
        obtain ⟨e, he, rfl⟩ := List.mem_map.1 hm
        obtain ⟨y, hy, hye⟩ := List.mem_filterMap.1 he
        split at hye
        · cases hye
        · rename_i hno
          obtain ⟨b, _, rfl⟩ := Option.map_eq_some_iff.1 hye
          exact hno hh
      · rw [if_neg hh]
        have hpf0 : GoMap.get repo q = some pf := by rw [← addCommit_same repo c.hash q hqne]; exact hpf
        rw [hpf0, Option.getD_some]
        cases hb : GoMap.get pf p with
        | none =>
          rw [putAll_not_mem _ _ _ ?_, hKsub p hh]
          intro hm
          obtain ⟨e, he, rfl⟩ := List.mem_map.1 hm
          obtain ⟨y, hy, hye⟩ := List.mem_filterMap.1 he
          split at hye
          · cases hye
          · obtain ⟨b, hb', rfl⟩ := Option.map_eq_some_iff.1 hye
            rw [hb] at hb'; cases hb'
        | some b =>
          have hin : p ∈ env.order n 0 (GoMap.keys pf) :=
            (horder _ _ _).mem_iff.2 ((GoMap.get_isSome_iff pf p).1 (by rw [hb]; rfl))
          obtain ⟨v, hv, hg⟩ := putAll_mem (putAll ([] : Files) (l.filterMap (fun x => (act x).kept))) ((env.order n 0 (GoMap.keys pf)).filterMap
            (fun x => if GoMap.has st.2 x then none else (GoMap.get pf x).map (fun b => (x, b)))) p (by
              refine List.mem_map.2 ⟨(p, b), List.mem_filterMap.2 ⟨p, hin, ?_⟩, rfl⟩
              rw [if_neg hh, hb]; rfl)
          rw [hg]
          obtain ⟨y, hy, hye⟩ := List.mem_filterMap.1 hv
          split at hye
          · cases hye
          · obtain ⟨b', hb', he⟩ := Option.map_eq_some_iff.1 hye
            cases he
            rw [hb] at hb'; cases hb'; rfl

theorem regStored_look {env env' : Env} (he : SameEnv env env') (c : HCommit) (changes : List Str) (r r' : Repo)
    (h : LookEq c.parents r r') (p : Str) : regStored env' c changes r' p = regStored env c changes r p := by
  unfold regStored
  simp only [regAct_look he c.hash c.parents r r' h]
  split
  · rfl
  · cases hp : c.parents with
    | nil => rfl
    | cons q ps =>
      have h' := h q (by rw [hp]; simp) p
      simp only [Repo.getFileOptional] at h'
      simp only
      cases h1 : GoMap.get r' q with
      | none =>
        rw [h1] at h'
        cases h2 : GoMap.get r q with
        | none => rfl
        | some _ => rw [h2] at h'; cases h'
      | some a =>
        rw [h1] at h'
        cases h2 : GoMap.get r q with
        | none => rw [h2] at h'; cases h'
        | some b =>
          rw [h2] at h'
          simpa using h'

end Ripsrc
