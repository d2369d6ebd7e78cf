import Verif.Lib.Regular
/-!
# One file of a merge
-/
namespace Ripsrc
open Spec

/-- The update for one key of a merge. -/
def mergeAct (env : Env) (hash : Str) (parentHashes : List Str) (diffs : DiffsByKey) (repo : Repo) (k : Str) : Go Act :=
  let ds := (GoMap.get diffs k).getD []
  let pds := parentHashes.zip ds
  if isDelete ds then
    if k.length < deletedPrefix.length then .error (.panic "slice bounds out of range")
    else .ok (.report (k.drop deletedPrefix.length) { commit := hash, lines := [] })
  else do
    let bp ← anyBinaryParent repo pds
    if anyBinaryDiff ds || bp then .ok (.both k (blameBinaryFile hash))
    else do
      let same ← sameAsParent repo k pds
      match same with
      | some b => .ok (.keep k b)
      | none => do
        let ps ← mergeParents repo k pds
        let bl ← applyMerge env.srt ps (ds.map (fun d => d.getD {})) hash
        .ok (.both k bl)

theorem mergeFile_eq (env : Env) (hash : Str) (parentHashes : List Str) (diffs : DiffsByKey) (st : Repo × Files) (k : Str) :
    mergeFile env hash parentHashes diffs st k = (do
      let a ← mergeAct env hash parentHashes diffs st.1 k
      a.run hash st) := by
  unfold mergeFile mergeAct
  simp only [bind, Except.bind]
  split
  · split <;> rfl
  · cases anyBinaryParent st.1 (parentHashes.zip ((GoMap.get diffs k).getD [])) with
    | error e => rfl
    | ok bp =>
      simp only
      split
      · rfl
      · cases sameAsParent st.1 k (parentHashes.zip ((GoMap.get diffs k).getD [])) with
        | error e => rfl
        | ok same =>
          cases same with
          | some b => rfl
          | none =>
            simp only
            cases mergeParents st.1 k (parentHashes.zip ((GoMap.get diffs k).getD [])) with
            | error e => rfl
            | ok ps =>
              simp only
              cases applyMerge env.srt ps (((GoMap.get diffs k).getD []).map (fun d => d.getD {})) hash <;> rfl

theorem anyBinaryParent_look {r r' : Repo} {ps : List Str} (h : LookEq ps r r') (l : List (Str × Option Diff)) (hl : ∀ x ∈ l, x.1 ∈ ps) :
    anyBinaryParent r' l = anyBinaryParent r l := by
  induction l with
  | nil => rfl
  | cons x l ih =>
    obtain ⟨p, d⟩ := x
    have ih' := ih (fun y hy => hl y (by simp [hy]))
    cases d with
    | none => exact ih'
    | some d => simp only [anyBinaryParent, ih', h.must (hl (p, some d) (by simp))]

theorem sameAsParent_look {r r' : Repo} {ps : List Str} (h : LookEq ps r r') (k : Str) (l : List (Str × Option Diff)) (hl : ∀ x ∈ l, x.1 ∈ ps) :
    sameAsParent r' k l = sameAsParent r k l := by
  induction l with
  | nil => rfl
  | cons x l ih =>
    obtain ⟨p, d⟩ := x
    have ih' := ih (fun y hy => hl y (by simp [hy]))
    cases d with
    | some d => exact ih'
    | none => simp only [sameAsParent, ih', h p (hl (p, none) (by simp))]

theorem mergeParents_look {r r' : Repo} {ps : List Str} (h : LookEq ps r r') (k : Str) (l : List (Str × Option Diff)) (hl : ∀ x ∈ l, x.1 ∈ ps) :
    mergeParents r' k l = mergeParents r k l := by
  induction l with
  | nil => rfl
  | cons x l ih =>
    obtain ⟨p, d⟩ := x
    have ih' := ih (fun y hy => hl y (by simp [hy]))
    have hp : p ∈ ps := hl (p, d) (by simp)
    cases d <;> simp only [mergeParents, ih', h p hp, h.must hp]

theorem mergeAct_look {env env' : Env} (he : SameEnv env env') (hash : Str) (parents : List Str) (diffs diffs' : DiffsByKey) (r r' : Repo)
    (h : LookEq parents r r') (k : Str) (hd : GoMap.get diffs' k = GoMap.get diffs k) :
    mergeAct env' hash parents diffs' r' k = mergeAct env hash parents diffs r k := by
  have hz : ∀ x ∈ parents.zip ((GoMap.get diffs k).getD []), x.1 ∈ parents :=
    fun x hx => (List.of_mem_zip (a := x.1) (b := x.2) hx).1
  unfold mergeAct
  simp only [hd, anyBinaryParent_look h _ hz, sameAsParent_look h _ _ hz, mergeParents_look h _ _ hz, he.1]

theorem mergeAct_congr (env : Env) (hash : Str) (parents : List Str) (diffs : DiffsByKey) (r r' : Repo)
    (h : ∀ q ∈ parents, GoMap.get r' q = GoMap.get r q) (k : Str) :
    mergeAct env hash parents diffs r' k = mergeAct env hash parents diffs r k :=
  mergeAct_look ⟨rfl, rfl⟩ hash parents diffs diffs r r' (LookEq.of_get h) k rfl

/-- Parent and diff, as the program sees them. -/
def seen (x : Str × Option FileChange) : Str × Option Diff := (x.1, x.2.map (fun f => f.norm.meaning))

theorem list_choose {α β : Type} {R : α → β → Prop} (l : List α) (h : ∀ x ∈ l, ∃ y, R x y) :
    ∃ r : List (α × β), r.map Prod.fst = l ∧ ∀ z ∈ r, R z.1 z.2 := by
  induction l with
  | nil => exact ⟨[], rfl, by simp⟩
  | cons a l ih =>
    obtain ⟨y, hy⟩ := h a (by simp)
    obtain ⟨r, h1, h2⟩ := ih (fun x hx => h x (by simp [hx]))
    refine ⟨(a, y) :: r, by simp [h1], ?_⟩
    intro z hz
    rcases List.mem_cons.1 hz with rfl | hz
    · exact hy
    · exact h2 z hz

/-- Either no element satisfies a predicate or there is a first one that does. -/
theorem first_split {α : Type} (P : α → Prop) (l : List α) :
    (∀ x ∈ l, ¬ P x) ∨ ∃ pre x post, l = pre ++ x :: post ∧ P x ∧ ∀ y ∈ pre, ¬ P y := by
  induction l with
  | nil => exact Or.inl (by simp)
  | cons a l ih =>
    by_cases ha : P a
    · exact Or.inr ⟨[], a, l, rfl, ha, by simp⟩
    · rcases ih with h | ⟨pre, x, post, h1, h2, h3⟩
      · left
        intro x hx
        rcases List.mem_cons.1 hx with rfl | hx
        · exact ha
        · exact h x hx
      · refine Or.inr ⟨a :: pre, x, post, by rw [h1]; rfl, h2, ?_⟩
        intro y hy
        rcases List.mem_cons.1 hy with rfl | hy
        · exact ha
        · exact h3 y hy

theorem firstSome_append {a b : List (Option Str)} (h : ∀ x ∈ a, x = none) : firstSome (a ++ b) = firstSome b := by
  induction a with
  | nil => rfl
  | cons x a ih =>
    rw [h x (by simp)]
    exact ih (fun y hy => h y (by simp [hy]))

theorem firstSome_all_none {a : List (Option Str)} (h : ∀ x ∈ a, x = none) : firstSome a = none := by
  have := firstSome_append (b := []) h
  simpa [firstSome] using this

section
variable {env : Env} (hsrt : SortsHunks env.srt) {H : History} {G : Str → Str → List Str} (hH : History.Ok [] H)
  {a r : History} {c : HCommit} (hsplit : H = a ++ c :: r) (hreg : ¬ c.Regular)
  {repo : Repo} (hrepo : ∀ q ∈ c.parents, ∃ fs, GoMap.get repo q = some fs ∧ RightFiles H G q fs)
  (hG : ∀ c ∈ H, ∀ p, ∀ o ∈ G c.hash p, H.Reach c.hash o)
  {p : Str} {n : List Str} (htree : c.tree p = some n)

include hH hsplit htree in
/-- Facts about the changes of one path. -/
theorem merge_change {q : Str} {g : Option FileChange} (hx : (q, g) ∈ c.changesAt p) :
    q ∈ c.parents ∧ (∃ x ∈ a, x.hash = q) ∧
    (g = none → H.treeOf q p = some n) ∧
    (∀ f, g = some f → f.Ok ∧ f.kind.next = p ∧ f.kind.isDelete = false ∧ f.body.Takes (content (H.treeOf q) f.kind.prev) n ∧
      (f.kind.prev ≠ [] → ∃ o, H.treeOf q f.kind.prev = some o)) := by
  have hcok : c.Ok a := history_ok_at (r := r) (hsplit ▸ hH)
  obtain ⟨y, hy, he⟩ := List.mem_map.1 hx
  have hq := (List.of_mem_zip (a := y.1) (b := y.2) hy).1
  have hd := hcok.diffs y hy
  cases he
  have hbefore := hcok.parentsKnown y.1 hq
  rw [treeOf_prefix hH hsplit hbefore] at hd
  refine ⟨hq, hbefore, ?_, ?_⟩
  · intro h
    rw [hd.rest p (by rw [htree]; rfl) h, htree]
  · intro f hf
    obtain ⟨h1, h2⟩ := changeOf_some hf
    have hpne : p ≠ [] := (hcok.paths p (by rw [htree]; rfl)).1
    have hok := hd.ok f h1
    refine ⟨hok, h2, ?_, ?_, ?_⟩
    · cases h : f.kind.isDelete with
      | false => rfl
      | true => exact absurd ((next_nil_iff hok).2 h) (by rw [h2]; exact hpne)
    · have := hd.body f h1
      rw [h2] at this
      simpa [content, hpne, htree] using this
    · intro h
      exact Option.isSome_iff_exists.1 (hd.prev f h1 h)

include hH hsplit htree hrepo in
theorem anyBinaryParent_ok (l : List (Str × Option FileChange)) (hl : ∀ x ∈ l, x ∈ c.changesAt p) :
    ∃ bp, anyBinaryParent repo (l.map seen) = .ok bp ∧
      (bp = true ↔ ∃ q f, (q, some f) ∈ l ∧ f.kind.prev ≠ [] ∧ IsBin H q f.kind.prev) := by
  induction l with
  | nil => exact ⟨false, rfl, by simp⟩
  | cons x l ih =>
    obtain ⟨bp, h1, h2⟩ := ih (fun y hy => hl y (by simp [hy]))
    obtain ⟨q, g⟩ := x
    cases g with
    | none =>
      refine ⟨bp, h1, h2.trans ?_⟩
      constructor
      · rintro ⟨q', f, h, h'⟩; exact ⟨q', f, by simp [h], h'⟩
      · rintro ⟨q', f, h, h'⟩; exact ⟨q', f, by simpa using h, h'⟩
    | some f =>
      obtain ⟨hq, _, _, hf⟩ := merge_change hH hsplit htree (hl (q, some f) (by simp))
      obtain ⟨_, _, _, _, hprev⟩ := hf f rfl
      simp only [List.map_cons, seen, Option.map_some, anyBinaryParent, (meaning_norm f).1]
      by_cases hpe : f.kind.prev = []
      · rw [if_pos hpe]
        refine ⟨bp, h1, h2.trans ?_⟩
        constructor
        · rintro ⟨q', f', h, h'⟩; exact ⟨q', f', by simp [h], h'⟩
        · rintro ⟨q', f', h, h'⟩
          rcases List.mem_cons.1 h with he | h
          · cases he; exact absurd hpe h'.1
          · exact ⟨q', f', h, h'⟩
      · rw [if_neg hpe]
        obtain ⟨o, ho⟩ := hprev hpe
        obtain ⟨pf, hpf, hr⟩ := hrepo q hq
        obtain ⟨b, hb, hb'⟩ := hr _ _ ho
        have hmust : repo.getFileMust q f.kind.prev = .ok b := by unfold Repo.getFileMust; rw [hpf]; simp only; rw [hb]
        simp only [hmust, bind, Except.bind, h1]
        refine ⟨b.isBinary || bp, rfl, ?_⟩
        rw [Bool.or_eq_true, hb'.binary, h2]
        constructor
        · rintro (h | ⟨q', f', h, h'⟩)
          · exact ⟨q, f, by simp, hpe, h⟩
          · exact ⟨q', f', by simp [h], h'⟩
        · rintro ⟨q', f', h, h'⟩
          rcases List.mem_cons.1 h with he | h
          · cases he; exact Or.inl h'.2
          · exact Or.inr ⟨q', f', h, h'⟩

theorem anyBinaryDiff_iff (l : List (Str × Option FileChange)) :
    anyBinaryDiff (l.map (fun x => (seen x).2)) = true ↔ ∃ q f, (q, some f) ∈ l ∧ f.body = .binary := by
  unfold anyBinaryDiff
  rw [List.any_eq_true]
  constructor
  · rintro ⟨d, hd, h⟩
    obtain ⟨⟨q, g⟩, hx, rfl⟩ := List.mem_map.1 hd
    cases g with
    | none => cases h
    | some f =>
      simp only [seen, Option.map_some, (meaning_norm f).2.2] at h
      refine ⟨q, f, hx, ?_⟩
      cases hb : f.body <;> simp_all [Body.isBinary]
  · rintro ⟨q, f, hx, hb⟩
    refine ⟨some f.norm.meaning, List.mem_map.2 ⟨(q, some f), hx, rfl⟩, ?_⟩
    simp only [(meaning_norm f).2.2, hb, Body.isBinary]

include hH hsplit htree hrepo in
theorem sameAsParent_ok (l : List (Str × Option FileChange)) (hl : ∀ x ∈ l, x ∈ c.changesAt p) :
    (∀ x ∈ l, x.2 ≠ none) ∧ sameAsParent repo p (l.map seen) = .ok none ∨
    ∃ q b, l.find? (fun x => x.2.isNone) = some (q, none) ∧ sameAsParent repo p (l.map seen) = .ok (some b) ∧ Right H G q p n b := by
  induction l with
  | nil => exact Or.inl ⟨by simp, rfl⟩
  | cons x l ih =>
    obtain ⟨q, g⟩ := x
    cases g with
    | some f =>
      rcases ih (fun y hy => hl y (by simp [hy])) with ⟨h1, h2⟩ | ⟨q', b, h1, h2, h3⟩
      · refine Or.inl ⟨?_, h2⟩
        intro y hy
        rcases List.mem_cons.1 hy with rfl | hy
        · simp
        · exact h1 y hy
      · exact Or.inr ⟨q', b, by simpa [List.find?_cons] using h1, h2, h3⟩
    | none =>
      obtain ⟨hq, _, ht, _⟩ := merge_change hH hsplit htree (hl (q, none) (by simp))
      obtain ⟨pf, hpf, hr⟩ := hrepo q hq
      obtain ⟨b, hb, hb'⟩ := hr _ _ (ht rfl)
      refine Or.inr ⟨q, b, by simp, ?_, hb'⟩
      have hopt : repo.getFileOptional q p = .ok (some b) := by unfold Repo.getFileOptional; rw [hpf]; simp only; rw [hb]
      simp only [List.map_cons, seen, Option.map_none, sameAsParent, hopt, bind, Except.bind]

/-- What is known about one parent in a merge in which the file differs from all parents. -/
structure ParentFact (H : History) (G : Str → Str → List Str) (c : HCommit) (repo : Repo) (n : List Str)
    (x : Str × FileChange) (b : Blame) (cut : Cut) (o : List Str) : Prop where
  get : (if x.2.kind.prev = [] then Except.ok { commit := [], lines := [] } else repo.getFileMust x.1 x.2.kind.prev) = Except.ok b
  effect : Effect x.2 o n cut
  notBin : b.isBinary = false
  len : b.lines.length = o.length
  line : ∀ (i : Nat) (l : Line), b.lines[i]? = some l → (∃ a, o[i]? = some a ∧ SameLine l.line a) ∧ Origin H G x.1 x.2.kind.prev i l.commit
  old : ∀ l ∈ b.lines, l.commit ≠ c.hash

include hH hsplit htree hrepo hG in
theorem parentFact {q : Str} {f : FileChange} (hx : (q, some f) ∈ c.changesAt p) (hb : f.body ≠ .binary)
    (hpb : f.kind.prev ≠ [] → ¬ IsBin H q f.kind.prev) :
    ∃ y : Blame × Cut × List Str, ParentFact H G c repo n (q, f) y.1 y.2.1 y.2.2 := by
  have hcok : c.Ok a := history_ok_at (r := r) (hsplit ▸ hH)
  obtain ⟨hq, hbefore, _, hf⟩ := merge_change hH hsplit htree hx
  obtain ⟨hok, _, hdel, htakes, hprev⟩ := hf f rfl
  obtain ⟨cut, he⟩ := change_effect hok hdel htakes hb
  by_cases hpe : f.kind.prev = []
  · have hc0 : content (H.treeOf q) f.kind.prev = [] := by simp [content, hpe]
    rw [hc0] at he
    exact ⟨({ commit := [], lines := [] }, cut, []), ⟨by simp [hpe], he, rfl, rfl, by simp, by simp⟩⟩
  · obtain ⟨o, ho⟩ := hprev hpe
    have hc0 : content (H.treeOf q) f.kind.prev = o := by simp [content, hpe, ho]
    rw [hc0] at he
    obtain ⟨pf, hpf, hr⟩ := hrepo q hq
    obtain ⟨b, hb1, hb2⟩ := hr _ _ ho
    have hmust : repo.getFileMust q f.kind.prev = .ok b := by unfold Repo.getFileMust; rw [hpf]; simp only; rw [hb1]
    have hnb : b.isBinary = false := by
      cases h : b.isBinary with
      | false => rfl
      | true => exact absurd (hb2.binary.1 h) (hpb hpe)
    refine ⟨(b, cut, o), ⟨by simp only; rw [if_neg hpe]; exact hmust, he, hnb, hb2.length hnb, hb2.line hnb, ?_⟩⟩
    intro l hl hlc
    obtain ⟨i, hi⟩ := List.getElem?_of_mem hl
    have hor := (hb2.line hnb i l hi).2
    obtain ⟨x, hx, hxe⟩ := reach_before hH hsplit hbefore (origin_reach hG hor)
    exact hcok.new x hx (hxe.trans hlc)

theorem mergeParents_fact (k : Str) (l : List ((Str × FileChange) × Blame × Cut × List Str))
    (hl : ∀ z ∈ l, ParentFact H G c repo n z.1 z.2.1 z.2.2.1 z.2.2.2) :
    mergeParents repo k (l.map (fun z => seen (z.1.1, some z.1.2))) = .ok (l.map (fun z => z.2.1)) := by
  induction l with
  | nil => rfl
  | cons z l ih =>
    have hz := (hl z (by simp)).get
    have ih' := ih (fun y hy => hl y (by simp [hy]))
    simp only [List.map_cons, seen, Option.map_some, mergeParents, (meaning_norm z.1.2).1, bind, Except.bind]
    simp only [seen, Option.map_some] at ih'
    by_cases hpe : z.1.2.kind.prev = []
    · rw [if_pos hpe] at hz ⊢
      have hz' : ({ commit := [], lines := [] } : Blame) = z.2.1 := Except.ok.inj hz
      simp only [ih', hz']
    · rw [if_neg hpe] at hz ⊢
      simp only [hz, ih']

include hsrt hH hsplit hreg hrepo hG htree in
/-- What is done for a file of the merge that differs from some parent. -/
theorem mergeFile_ok {diffs : DiffsByKey} (hD : GoMap.get diffs p = some ((c.changesAt p).map (fun x => (seen x).2)))
    (hch : ∃ x ∈ c.changesAt p, x.2 ≠ none) :
    ∃ act b, mergeAct env c.hash c.parents diffs repo p = .ok act ∧ Right H G c.hash p n b ∧
      (c.Writes H p ∧ act = .both p b ∨ ¬ c.Writes H p ∧ act = .keep p b) := by
  have hc : c ∈ H := by rw [hsplit]; simp
  have hcok : c.Ok a := history_ok_at (r := r) (hsplit ▸ hH)
  have hpne : p ≠ [] := (hcok.paths p (by rw [htree]; rfl)).1
  have hplen : c.diffs.length = c.parents.length := hcok.count (by
    intro h; apply hreg; unfold HCommit.Regular; rw [h]; simp)
  have hzip : c.parents.zip ((c.changesAt p).map (fun x => (seen x).2)) = (c.changesAt p).map seen := by
    unfold HCommit.changesAt
    rw [List.map_map, List.map_map]
    have : ∀ (l : List Str) (m : List (List FileChange)), m.length = l.length →
        l.zip ((l.zip m).map ((fun x => (seen x).2) ∘ fun x => (x.1, changeOf x.2 p))) =
        (l.zip m).map (seen ∘ fun x => (x.1, changeOf x.2 p)) := by
      intro l
      induction l with
      | nil => intro m hm; rfl
      | cons a l ih =>
        intro m hm
        cases m with
        | nil => simp at hm
        | cons b m => simp only [List.zip_cons_cons, List.map_cons, ih m (by simpa using hm)]; rfl
    exact this _ _ hplen
  have hdiffs : ∀ P : Option FileChange → Prop, (∃ x ∈ c.diffs, P (changeOf x p)) ↔ ∃ x ∈ c.changesAt p, P x.2 := by
    intro P
    unfold HCommit.changesAt
    constructor
    · rintro ⟨x, hx, h⟩
      obtain ⟨i, hi, rfl⟩ := List.getElem_of_mem hx
      refine ⟨(c.parents[i]'(by omega), changeOf c.diffs[i] p), List.mem_map.2 ⟨(c.parents[i]'(by omega), c.diffs[i]), ?_, rfl⟩, h⟩
      rw [List.mem_iff_getElem]
      exact ⟨i, by simp; omega, by simp⟩
    · rintro ⟨x, hx, h⟩
      obtain ⟨y, hy, rfl⟩ := List.mem_map.1 hx
      exact ⟨y.2, (List.of_mem_zip (a := y.1) (b := y.2) hy).2, h⟩
  have hall : (∀ x ∈ c.diffs, changeOf x p ≠ none) ↔ ∀ x ∈ c.changesAt p, x.2 ≠ none := by
    constructor
    · intro h x hx hn
      obtain ⟨y, hy, hy'⟩ := (hdiffs (· = none)).2 ⟨x, hx, hn⟩
      exact h y hy hy'
    · intro h x hx hn
      obtain ⟨y, hy, hy'⟩ := (hdiffs (· = none)).1 ⟨x, hx, hn⟩
      exact h y hy hy'
  have hsome : ∃ x ∈ c.diffs, changeOf x p ≠ none := (hdiffs (· ≠ none)).2 hch
  have hdel : isDelete ((c.changesAt p).map (fun x => (seen x).2)) = false := by
    obtain ⟨⟨q, g⟩, hx, hg⟩ := hch
    obtain ⟨f, rfl⟩ := Option.ne_none_iff_exists'.1 hg
    obtain ⟨_, _, _, hf⟩ := merge_change hH hsplit htree hx
    obtain ⟨_, hnext, _⟩ := hf f rfl
    unfold isDelete
    rw [List.all_eq_false]
    refine ⟨some f.norm.meaning, List.mem_map.2 ⟨_, hx, rfl⟩, ?_⟩
    simp [(meaning_norm f).2.1, hnext, hpne]
  obtain ⟨bp, hbp1, hbp2⟩ := anyBinaryParent_ok hH hsplit hrepo htree (c.changesAt p) (fun _ h => h)
  have hbd := anyBinaryDiff_iff (c.changesAt p)
  unfold mergeAct
  simp only [hD, Option.getD_some, hzip, hdel, Bool.false_eq_true, if_false, hbp1, bind, Except.bind]
  by_cases hbin : (anyBinaryDiff ((c.changesAt p).map (fun x => (seen x).2)) || bp) = true
  · -- binary
    rw [if_pos hbin]
    have hisbin : ∃ q f, (q, some f) ∈ c.changesAt p ∧ (f.body = .binary ∨ f.kind.prev ≠ [] ∧ IsBin H q f.kind.prev) := by
      rw [Bool.or_eq_true, hbd, hbp2] at hbin
      rcases hbin with ⟨q, f, h1, h2⟩ | ⟨q, f, h1, h2⟩
      · exact ⟨q, f, h1, Or.inl h2⟩
      · exact ⟨q, f, h1, Or.inr h2⟩
    refine ⟨_, blameBinaryFile c.hash, rfl, ?_, Or.inl ⟨⟨hpne, hsome, Or.inr (Or.inr hisbin)⟩, rfl⟩⟩
    refine ⟨⟨fun _ => ?_, fun _ => rfl⟩, fun h => (by cases h), fun h => (by cases h)⟩
    obtain ⟨q, f, h1, h2 | h2⟩ := hisbin
    · exact .mergeChange hc hreg hpne h1 h2
    · exact .mergeParent hc hreg hpne h1 h2.1 h2.2
  · rw [if_neg hbin]
    have hnobin : ¬ ∃ q f, (q, some f) ∈ c.changesAt p ∧ (f.body = .binary ∨ f.kind.prev ≠ [] ∧ IsBin H q f.kind.prev) := by
      rintro ⟨q, f, h1, h2⟩
      apply hbin
      rw [Bool.or_eq_true, hbd, hbp2]
      rcases h2 with h2 | h2
      · exact Or.inl ⟨q, f, h1, h2⟩
      · exact Or.inr ⟨q, f, h1, h2⟩
    rcases sameAsParent_ok hH hsplit hrepo htree (c.changesAt p) (fun _ h => h) with ⟨hs1, hs2⟩ | ⟨q, b, hs1, hs2, hs3⟩
    · -- differs from all parents
      simp only [hs2]
      have hnb : ¬ IsBin H c.hash p := by
        intro h
        rcases isBin_merge hH hc hreg h with ⟨q, f, h1, h2⟩ | ⟨_, q, h1, _⟩ | ⟨h1, _⟩
        · exact hnobin ⟨q, f, h1, h2⟩
        · exact hs1 _ (List.mem_of_find?_eq_some h1) rfl
        · obtain ⟨x, hx, hx'⟩ := hch
          exact hx' (h1 x hx)
      obtain ⟨l, hl1, hl2⟩ := list_choose (R := fun (x : Str × Option FileChange) (y : FileChange × Blame × Cut × List Str) =>
          x = (x.1, some y.1) ∧ ParentFact H G c repo n (x.1, y.1) y.2.1 y.2.2.1 y.2.2.2) (c.changesAt p) (by
        intro x hx
        obtain ⟨f, hf⟩ := Option.ne_none_iff_exists'.1 (hs1 x hx)
        obtain ⟨q, g⟩ := x
        simp only at hf
        subst hf
        obtain ⟨y, hy⟩ := parentFact hH hsplit hrepo hG htree hx (fun h => hnobin ⟨q, f, hx, Or.inl h⟩)
          (fun h h' => hnobin ⟨q, f, hx, Or.inr ⟨h, h'⟩⟩)
        exact ⟨(f, y), rfl, hy⟩)
      let L : List ((Str × FileChange) × Blame × Cut × List Str) := l.map (fun z => ((z.1.1, z.2.1), z.2.2))
      have hL : ∀ z ∈ L, ParentFact H G c repo n z.1 z.2.1 z.2.2.1 z.2.2.2 := by
        intro z hz
        obtain ⟨w, hw, rfl⟩ := List.mem_map.1 hz
        exact (hl2 w hw).2
      have hchanges : c.changesAt p = L.map (fun z => (z.1.1, some z.1.2)) := by
        rw [← hl1, List.map_map]
        apply List.map_congr_left
        intro w hw
        exact (hl2 w hw).1
      have hmp : mergeParents repo p ((c.changesAt p).map seen) = .ok (L.map (fun z => z.2.1)) := by
        rw [hchanges, List.map_map]
        exact mergeParents_fact p L hL
      have hds : ((c.changesAt p).map (fun x => (seen x).2)).map (fun d => d.getD {}) = L.map (fun z => z.1.2.norm.meaning) := by
        rw [hchanges, List.map_map, List.map_map]; rfl
      have hLne : L ≠ [] := by
        intro h
        rw [hchanges, h] at hch
        obtain ⟨x, hx, _⟩ := hch
        cases hx
      obtain ⟨lines, g1, g2, g3⟩ := applyMerge_script env.srt hsrt c.hash n.length
        (L.map (fun z => (z.2.1, z.1.2.norm.meaning, z.2.2.1))) (by simpa using hLne) (by
          intro y hy
          obtain ⟨z, hz, rfl⟩ := List.mem_map.1 hy
          have hz' := hL z hz
          exact ⟨hz'.effect.ok, hz'.notBin, by rw [hz'.effect.oldLen]; exact hz'.len, hz'.effect.notBin,
            by rw [hz'.effect.hunks], hz'.effect.newLen, hz'.old⟩)
      simp only [List.map_map, Function.comp_def] at g1 g3
      simp only [hmp, hds, g1]
      refine ⟨_, { commit := c.hash, lines := lines }, rfl, ?_, Or.inl ⟨⟨hpne, hsome, Or.inr (Or.inl (hall.2 hs1))⟩, rfl⟩⟩
      have hlen : lines.length = n.length := by
        have := congrArg List.length g3
        simpa using this
      refine ⟨⟨fun h => (by cases h), fun h => absurd h hnb⟩, fun _ => hlen, fun _ j ln hj => ?_⟩
      simp only at hj
      have hjn : j < n.length := by
        rw [← hlen]
        exact (List.getElem?_eq_some_iff.1 hj).1
      constructor
      · -- content
        obtain ⟨z0, L', hL'⟩ : ∃ z0 L', L = z0 :: L' := by
          cases hLL : L with
          | nil => exact absurd hLL hLne
          | cons z0 L' => exact ⟨z0, L', rfl⟩
        have h0 := hL z0 (by rw [hL']; simp)
        have hcont := g2 _ _ (by rw [hL']; rfl)
        have hj' : (lines.map (·.line))[j]? = some ln.line := by rw [List.getElem?_map, hj]; rfl
        rw [hcont] at hj'
        cases hs : z0.1.2.body.source j with
        | none =>
          obtain ⟨⟨t, a', k1, k2, k3⟩, _⟩ := h0.effect.added j hjn hs c.hash z0.2.1.lines h0.len
          rw [List.getElem?_map] at hj'
          simp only at k1 hj'
          rw [k1] at hj'
          cases hj'
          exact ⟨a', k2, k3⟩
        | some i =>
          obtain ⟨k1, k2, k3⟩ := h0.effect.kept j hjn i hs
          rw [List.getElem?_map] at hj'
          simp only at hj'
          rw [(k3 c.hash z0.2.1.lines h0.len).1] at hj'
          obtain ⟨l0, hl0, hl0'⟩ := Option.map_eq_some_iff.1 hj'
          obtain ⟨⟨a', ha', hsl⟩, _⟩ := h0.line i l0 hl0
          rw [← hl0']
          exact ⟨a', by rw [k1]; exact ha', hsl⟩
      · -- origin
        have hcm : ln.commit = (firstSome (L.map (fun z => ((attributions z.2.2.1.script z.2.1.lines)[j]?).getD none))).getD c.hash := by
          have : (lines.map (·.commit))[j]? = some ln.commit := by rw [List.getElem?_map, hj]; rfl
          rw [g3, List.getElem?_map, List.getElem?_range hjn] at this
          simpa using this.symm
        have hnone : ∀ z ∈ L, z.1.2.body.source j = none → ((attributions z.2.2.1.script z.2.1.lines)[j]?).getD none = none := by
          intro z hz hs
          rw [((hL z hz).effect.added j hjn hs c.hash z.2.1.lines (hL z hz).len).2]
          rfl
        rcases first_split (fun z : (Str × FileChange) × Blame × Cut × List Str => z.1.2.body.source j ≠ none) L with hno | ⟨pre, z, post, e1, e2, e3⟩
        · rw [hcm, firstSome_all_none]
          · refine .mergeAdded hc hreg hnb ?_
            rw [hchanges]
            intro x hx
            obtain ⟨z, hz, rfl⟩ := List.mem_map.1 hx
            exact ⟨z.1.2, rfl, Classical.not_not.1 (hno z hz)⟩
          · intro x hx
            obtain ⟨z, hz, rfl⟩ := List.mem_map.1 hx
            exact hnone z hz (Classical.not_not.1 (hno z hz))
        · obtain ⟨i, hi⟩ := Option.ne_none_iff_exists'.1 e2
          have hz : z ∈ L := by rw [e1]; simp
          have hz' := hL z hz
          obtain ⟨_, hio, k3⟩ := hz'.effect.kept j hjn i hi
          have hilen : i < z.2.1.lines.length := by rw [hz'.len]; exact hio
          have hat := (k3 c.hash z.2.1.lines hz'.len).2
          rw [List.getElem?_eq_getElem hilen] at hat
          have hcomm : ln.commit = z.2.1.lines[i].commit := by
            rw [hcm, e1, List.map_append, List.map_cons, firstSome_append, hat]
            · rfl
            · intro x hx
              obtain ⟨y, hy, rfl⟩ := List.mem_map.1 hx
              exact hnone y (by rw [e1]; simp [hy]) (Classical.not_not.1 (e3 y hy))
          rw [hcomm]
          refine .mergeKept (pre := pre.map (fun z => (z.1.1, some z.1.2))) (post := post.map (fun z => (z.1.1, some z.1.2)))
            (q := z.1.1) (f := z.1.2) hc hreg hnb hs1 (by rw [hchanges, e1]; simp) ?_ hi
            (hz'.line i _ (List.getElem?_eq_getElem hilen)).2
          intro x hx g hg
          obtain ⟨y, hy, rfl⟩ := List.mem_map.1 hx
          cases hg
          exact Classical.not_not.1 (e3 y hy)
    · -- same as a parent
      simp only [hs2]
      have hqb : IsBin H c.hash p ↔ IsBin H q p := by
        constructor
        · intro h
          rcases isBin_merge hH hc hreg h with ⟨q, f, h1, h2⟩ | ⟨_, q', h1, h2⟩ | ⟨h1, _⟩
          · exact absurd ⟨q, f, h1, h2⟩ hnobin
          · rw [hs1] at h1; cases h1; exact h2
          · obtain ⟨x, hx, hx'⟩ := hch
            exact absurd (h1 x hx) hx'
        · exact fun h => .mergeSame hc hreg hch hs1 h
      refine ⟨_, b, rfl, ⟨hs3.binary.trans hqb.symm, hs3.length, fun hv j ln hj => ⟨(hs3.line hv j ln hj).1, ?_⟩⟩, Or.inr ⟨?_, rfl⟩⟩
      · refine .mergeSame hc hreg ?_ hch hs1 (hs3.line hv j ln hj).2
        intro h
        rw [hqb, ← hs3.binary, hv] at h
        cases h
      · rintro ⟨_, _, h | h | h⟩
        · exact hreg h
        · exact hall.1 h _ (List.mem_of_find?_eq_some hs1) rfl
        · exact hnobin h

end

end Ripsrc
