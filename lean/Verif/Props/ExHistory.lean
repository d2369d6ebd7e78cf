import Verif.Spec.Run
import Verif.Lib.LogPatch
import Verif.Lib.Sub
/-!
# A concrete history

`c1` (root) creates `f`; `c2` and `c3` have parent `c1`, `c2` creates `g` and `c3` appends a line to `f`; `c4` merges them and
adds a line to `g`, so that `g` differs from both parents; `c5` removes `f`.
-/
namespace Ripsrc.Ex
open Spec

/-- A tree given by a list of files. -/
def assocTree (l : List (Str × List Str)) : Tree := fun p => l.lookup p

theorem assocTree_some {l : List (Str × List Str)} {p : Str} (h : (assocTree l p).isSome) : p ∈ l.map Prod.fst := by
  unfold assocTree at h
  induction l with
  | nil => simp at h
  | cons x l ih =>
    rw [List.lookup_cons] at h
    split at h
    · rename_i he
      simp only [List.map_cons, List.mem_cons]
      exact Or.inl (by simpa using he)
    · simp only [List.map_cons, List.mem_cons]
      exact Or.inr (ih h)

theorem describes_assoc {o n : List (Str × List Str)} {cs : List FileChange} (ok : ∀ f ∈ cs, f.Ok)
    (prev : ∀ f ∈ cs, f.kind.prev ≠ [] → (assocTree o f.kind.prev).isSome)
    (next : ∀ f ∈ cs, f.kind.next ≠ [] → (assocTree n f.kind.next).isSome)
    (body : ∀ f ∈ cs, f.body.Takes (content (assocTree o) f.kind.prev) (content (assocTree n) f.kind.next))
    (once : (cs.map FileChange.target).Nodup)
    (gone : ∀ f ∈ cs, f.kind.next = [] → (assocTree n f.kind.prev).isSome → (changeOf cs f.kind.prev).isSome)
    (order : cs.Pairwise (fun f g => g.kind.next = [] → f.kind.next ≠ g.kind.prev))
    (rest : ∀ p ∈ n.map Prod.fst, changeOf cs p = none → assocTree o p = assocTree n p) :
    Describes (assocTree o) (assocTree n) cs :=
  ⟨ok, prev, next, body, once, gone, order, fun p hp => rest p (assocTree_some hp)⟩

/-- A file is created. -/
def createF (p : Str) (ls : List Str) : FileChange where
  kind := .create p b!"100644"
  before := []
  after := [b!"index 0000000..7898192"]
  body := .text { segs := [([], ls.map (fun l => .edit (.add l)))], tail := [] } (fun _ => [])

/-- Lines are appended to a file of one line. -/
def appendF (p l : Str) (ls : List Str) : FileChange where
  kind := .modify p
  before := []
  after := [b!"index 7898192..422c2b7 100644"]
  body := .text { segs := [([], .edit (.keep l) :: ls.map (fun l => .edit (.add l)))], tail := [] } (fun _ => [])

/-- A file with two lines is removed. -/
def removeF (p : Str) (ls : List Str) : FileChange where
  kind := .delete p b!"100644"
  before := []
  after := [b!"index 422c2b7..0000000"]
  body := .text { segs := [([], ls.map (fun l => .edit (.del l)))], tail := [] } (fun _ => [])

def t1 : List (Str × List Str) := [(b!"f", [b!"a"])]
def t2 : List (Str × List Str) := [(b!"f", [b!"a"]), (b!"g", [b!"x"])]
def t3 : List (Str × List Str) := [(b!"f", [b!"a", b!"b"])]
def t4 : List (Str × List Str) := [(b!"f", [b!"a", b!"b"]), (b!"g", [b!"x", b!"y"])]
def t5 : List (Str × List Str) := [(b!"g", [b!"x", b!"y"])]

def c1 : HCommit where
  hash := b!"c1"
  parents := []
  tree := assocTree t1
  diffs := [[createF b!"f" [b!"a"]]]

def c2 : HCommit where
  hash := b!"c2"
  parents := [b!"c1"]
  tree := assocTree t2
  diffs := [[createF b!"g" [b!"x"]]]

def c3 : HCommit where
  hash := b!"c3"
  parents := [b!"c1"]
  tree := assocTree t3
  diffs := [[appendF b!"f" b!"a" [b!"b"]]]

def c4 : HCommit where
  hash := b!"c4"
  parents := [b!"c2", b!"c3"]
  tree := assocTree t4
  diffs := [[appendF b!"f" b!"a" [b!"b"], appendF b!"g" b!"x" [b!"y"]], [createF b!"g" [b!"x", b!"y"]]]

def c5 : HCommit where
  hash := b!"c5"
  parents := [b!"c4"]
  tree := assocTree t5
  diffs := [[removeF b!"f" [b!"a", b!"b"]]]

def H : History := [c1, c2, c3, c4, c5]

theorem other1 : OtherHeader b!"index 0000000..7898192" := ⟨by decide, Or.inl ⟨_, rfl⟩⟩
theorem other2 : OtherHeader b!"index 7898192..422c2b7 100644" := ⟨by decide, Or.inl ⟨_, rfl⟩⟩
theorem other3 : OtherHeader b!"index 422c2b7..0000000" := ⟨by decide, Or.inl ⟨_, rfl⟩⟩

theorem ok1 : (createF b!"f" [b!"a"]).Ok :=
  ⟨⟨by decide, by decide, by decide⟩, by simp [createF], by simpa [createF] using other1, ⟨by decide, by decide⟩, by decide⟩
theorem ok2 : (createF b!"g" [b!"x"]).Ok :=
  ⟨⟨by decide, by decide, by decide⟩, by simp [createF], by simpa [createF] using other1, ⟨by decide, by decide⟩, by decide⟩
theorem ok3 : (appendF b!"f" b!"a" [b!"b"]).Ok :=
  ⟨by show NameOk _; decide, by simp [appendF], by simpa [appendF] using other2, ⟨by decide, by decide⟩, by decide⟩
theorem ok4 : (appendF b!"g" b!"x" [b!"y"]).Ok :=
  ⟨by show NameOk _; decide, by simp [appendF], by simpa [appendF] using other2, ⟨by decide, by decide⟩, by decide⟩
theorem ok5 : (createF b!"g" [b!"x", b!"y"]).Ok :=
  ⟨⟨by decide, by decide, by decide⟩, by simp [createF], by simpa [createF] using other1, ⟨by decide, by decide⟩, by decide⟩
theorem ok6 : (removeF b!"f" [b!"a", b!"b"]).Ok :=
  ⟨⟨by decide, by decide, by decide⟩, by simp [removeF], by simpa [removeF] using other3, ⟨by decide, by decide⟩, by decide⟩

theorem d1 : Describes emptyTree (assocTree t1) [createF b!"f" [b!"a"]] :=
  describes_assoc (o := []) (by simpa using ok1) (by simp [createF, Kind.prev]) (by decide) (by simp only [List.mem_singleton, forall_eq]; exact ⟨rfl, rfl, by decide⟩)
    (by decide) (by decide) (by simp) (by decide)
theorem d2 : Describes (assocTree t1) (assocTree t2) [createF b!"g" [b!"x"]] :=
  describes_assoc (by simpa using ok2) (by simp [createF, Kind.prev]) (by decide) (by simp only [List.mem_singleton, forall_eq]; exact ⟨rfl, rfl, by decide⟩)
    (by decide) (by decide) (by simp) (by decide)
theorem d3 : Describes (assocTree t1) (assocTree t3) [appendF b!"f" b!"a" [b!"b"]] :=
  describes_assoc (by simpa using ok3) (by decide) (by decide) (by simp only [List.mem_singleton, forall_eq]; exact ⟨rfl, rfl, by decide⟩)
    (by decide) (by decide) (by simp) (by decide)
theorem d4a : Describes (assocTree t2) (assocTree t4) [appendF b!"f" b!"a" [b!"b"], appendF b!"g" b!"x" [b!"y"]] :=
  describes_assoc (by simpa using ⟨ok3, ok4⟩) (by decide) (by decide)
    (by simp only [List.mem_cons, List.not_mem_nil, or_false, forall_eq_or_imp, forall_eq]; exact ⟨⟨rfl, rfl, by decide⟩, ⟨rfl, rfl, by decide⟩⟩)
    (by decide) (by decide) (by simp [appendF, Kind.next]) (by decide)
theorem d4b : Describes (assocTree t3) (assocTree t4) [createF b!"g" [b!"x", b!"y"]] :=
  describes_assoc (by simpa using ok5) (by simp [createF, Kind.prev]) (by decide) (by simp only [List.mem_singleton, forall_eq]; exact ⟨rfl, rfl, by decide⟩)
    (by decide) (by decide) (by simp) (by decide)
theorem d5 : Describes (assocTree t4) (assocTree t5) [removeF b!"f" [b!"a", b!"b"]] :=
  describes_assoc (by simpa using ok6) (by decide) (by decide) (by simp only [List.mem_singleton, forall_eq]; exact ⟨rfl, rfl, by decide⟩)
    (by decide) (by decide) (by simp) (by decide)

theorem pathsOk {c : HCommit} {l : List (Str × List Str)} (ht : c.tree = assocTree l) (h : ∀ p ∈ l.map Prod.fst, p ≠ [] ∧ startsWith p b!"@@@del@@@" = false) : c.PathsOk := by
  intro p hp
  rw [ht] at hp
  refine ⟨(h p (assocTree_some hp)).1, fun _ q _ he => ?_⟩
  have := (h p (assocTree_some hp)).2
  rw [he, startsWith_append] at this
  cases this

theorem history_ok : History.Ok [] H := by
  refine ⟨⟨by simp, by decide, by decide, pathsOk rfl (by decide), fun _ => ⟨_, rfl, d1⟩, fun h => absurd rfl h, by simp [c1]⟩, ?_⟩
  refine ⟨⟨by decide, by decide, by decide, pathsOk rfl (by decide), fun h => absurd h (by decide), fun _ => rfl, ?_⟩, ?_⟩
  · intro x hx
    simp only [c2, List.zip_cons_cons, List.zip_nil_right, List.mem_singleton] at hx
    subst hx
    exact d2
  refine ⟨⟨by decide, by decide, by decide, pathsOk rfl (by decide), fun h => absurd h (by decide), fun _ => rfl, ?_⟩, ?_⟩
  · intro x hx
    simp only [c3, List.zip_cons_cons, List.zip_nil_right, List.mem_singleton] at hx
    subst hx
    exact d3
  refine ⟨⟨by decide, by decide, by decide, pathsOk rfl (by decide), fun h => absurd h (by decide), fun _ => rfl, ?_⟩, ?_⟩
  · intro x hx
    simp only [c4, List.zip_cons_cons, List.zip_nil_right, List.mem_cons, List.not_mem_nil, or_false] at hx
    rcases hx with rfl | rfl
    · exact d4a
    · exact d4b
  refine ⟨⟨by decide, by decide, by decide, pathsOk rfl (by decide), fun h => absurd h (by decide), fun _ => rfl, ?_⟩, trivial⟩
  intro x hx
  simp only [c5, List.zip_cons_cons, List.zip_nil_right, List.mem_singleton] at hx
  subst hx
  exact d5

/-! ## Its log -/

def entryOf (hash : Str) (frm : Option Str) (cs : List FileChange) : LogEntry where
  hash := hash
  from? := frm
  mergeOf := frm.map (fun _ => b!"c2 c3")
  author := b!"A <a@b>"
  message := [.text b!"message"]
  diffs := cs.map FileChange.lines

theorem entryOf_ok {hash : Str} {frm : Option Str} {cs : List FileChange} (h : NoNL hash ∧ 32 ∉ hash ∧ 13 ∉ hash) (hf : ∀ p, frm = some p → NoNL p)
    (hl : (entryOf hash frm cs).commitLine.length < logMaxLine) (hcs : ∀ f ∈ cs, f.Ok) : (entryOf hash frm cs).Ok := by
  refine ⟨h, hf, hl, ?_, ⟨show NoNL b!"A <a@b>" by decide, show 7 + 8 < logMaxLine by decide⟩, ?_, ?_⟩
  · intro m hm
    cases frm with
    | none => cases hm
    | some p => cases hm; exact ⟨show NoNL b!"c2 c3" by decide, show 5 + 7 < logMaxLine by decide⟩
  · intro m hm
    have : m = .text b!"message" := by simpa [entryOf] using hm
    subst this
    constructor <;> decide
  · intro d hd
    obtain ⟨f, hf, rfl⟩ := List.mem_map.1 hd
    exact change_fileDiffOk (hcs f hf)

/-- The entries of a commit of the example. -/
def entries (c : HCommit) : List LogEntry :=
  if c.parents.length ≤ 1 then [entryOf c.hash none (c.diffs.headD [])]
  else (c.parents.zip c.diffs).map (fun x => entryOf c.hash (some x.1) x.2)

theorem printed : ∀ c ∈ H, Printed c (entries c) := by
  intro c hc
  simp only [H, List.mem_cons, List.not_mem_nil, or_false] at hc
  rcases hc with rfl | rfl | rfl | rfl | rfl
  · exact Or.inl ⟨by decide, _, _, rfl, ⟨entryOf_ok (by decide) (by simp) (by decide) (by simpa [c1] using ok1), rfl, rfl, rfl⟩, rfl⟩
  · exact Or.inl ⟨by decide, _, _, rfl, ⟨entryOf_ok (by decide) (by simp) (by decide) (by simpa [c2] using ok2), rfl, rfl, rfl⟩, rfl⟩
  · exact Or.inl ⟨by decide, _, _, rfl, ⟨entryOf_ok (by decide) (by simp) (by decide) (by simpa [c3] using ok3), rfl, rfl, rfl⟩, rfl⟩
  · refine Or.inr ⟨by decide, ?_⟩
    unfold MergeEntries
    have hf : (c4.parents.zip c4.diffs).filter (fun x => !x.2.isEmpty) = c4.parents.zip c4.diffs := rfl
    simp only [hf]
    rw [if_neg (by simp [c4])]
    refine ⟨rfl, ?_⟩
    intro x hx
    simp only [c4, entries, List.zip_cons_cons, List.zip_nil_right, List.map_cons, List.map_nil, List.length_cons, List.length_nil,
      Nat.reduceAdd, Nat.reduceLeDiff, if_false, List.mem_cons, List.not_mem_nil, or_false] at hx
    rcases hx with rfl | rfl
    · exact ⟨entryOf_ok (by decide) (by simp; decide) (by decide) (by simpa using ⟨ok3, ok4⟩), rfl, rfl, rfl⟩
    · exact ⟨entryOf_ok (by decide) (by simp; decide) (by decide) (by simpa using ok5), rfl, rfl, rfl⟩
  · exact Or.inl ⟨by decide, _, _, rfl, ⟨entryOf_ok (by decide) (by simp) (by decide) (by simpa [c5] using ok6), rfl, rfl, rfl⟩, rfl⟩

/-! ## The environment -/

/-- `git blame` names the commit itself for every line. -/
def blames (c p : Str) : List Str := ((H.treeOf c p).getD []).map (fun _ => c)

def env : Env where
  srt := isort hunkLe
  order := fun _ _ l => l
  blameOut := fun c p => (H.treeOf c p).map (fun n => blameText (n.map (fun l => { hash := c, content := l })))

def parents : GoMap Str (List Str) := H.map (fun c => (c.hash, c.parents))

theorem assocTree_mem {l : List (Str × List Str)} {p : Str} {n : List Str} (h : assocTree l p = some n) : (p, n) ∈ l := by
  unfold assocTree at h
  induction l with
  | nil => simp at h
  | cons x l ih =>
    obtain ⟨k, v⟩ := x
    rw [List.lookup_cons] at h
    split at h
    · rename_i he
      cases h
      rw [show p = k by simpa using he]
      exact List.mem_cons_self ..
    · exact List.mem_cons_of_mem _ (ih h)

theorem lines_ok : ∀ c ∈ H, ∀ p n, c.tree p = some n → ∀ l ∈ n, NoNL l := by
  have key : ∀ (t : List (Str × List Str)), (∀ x ∈ t, ∀ l ∈ x.2, NoNL l) → ∀ p n, assocTree t p = some n → ∀ l ∈ n, NoNL l :=
    fun t ht p n h => ht (p, n) (assocTree_mem h)
  intro c hc
  simp only [H, List.mem_cons, List.not_mem_nil, or_false] at hc
  rcases hc with rfl | rfl | rfl | rfl | rfl
  · exact key t1 (by decide)
  · exact key t2 (by decide)
  · exact key t3 (by decide)
  · exact key t4 (by decide)
  · exact key t5 (by decide)

/-- What it prints. -/
theorem blame_answers : ∀ c ∈ H, ∀ p n, c.tree p = some n → BlameAnswers blames env.blameOut c.hash p n := by
  intro c hc p n hn
  have ht : H.treeOf c.hash p = some n := by rw [treeOf_of_mem history_ok hc, hn]
  refine ⟨n.map (fun l => { hash := c.hash, content := l }), ?_, ?_, ?_, ?_⟩
  · intro e he
    obtain ⟨l, hl, rfl⟩ := List.mem_map.1 he
    have hh : c.hash ≠ [] ∧ NoNL c.hash ∧ (32 : UInt8) ∉ c.hash := by
      simp only [H, List.mem_cons, List.not_mem_nil, or_false] at hc
      rcases hc with rfl | rfl | rfl | rfl | rfl <;> decide
    refine ⟨hh, ⟨by show NoNL []; decide, Or.inl rfl⟩, by simp, lines_ok c hc p n hn l hl⟩
  · simp only [env, ht, Option.map_some]
  · simp [List.map_map, Function.comp_def]
  · simp [blames, ht, List.map_map, Function.comp_def]

theorem blame_works : BlameWorks H blames env.blameOut := by
  refine ⟨fun c hc p n hn _ => blame_answers c hc p n hn, ?_⟩
  intro c _ p o ho
  obtain ⟨_, _, rfl⟩ := List.mem_map.1 ho
  exact .refl

/-- The example meets the hypotheses of the theorems about runs. -/
theorem setting : Setting env H blames parents parents :=
  ⟨isort_sortsHunks, fun _ _ _ => .refl _, history_ok, blame_works, by decide, .refl _, by decide⟩

end Ripsrc.Ex
