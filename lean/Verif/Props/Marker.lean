import Verif.Props.ProcessState
/-!
# File names that begin with the marker `@@@del@@@`

The program puts the diffs of a merge into one map, under the new path of a file, and deletions under the old path with
`@@@del@@@` in front (`/repo/ripsrc/history3/process/process.go:482,517-522`). The theorems about histories allow such file
names; excluded is only a merge that deletes `x` and has a file `@@@del@@@x`. Here is a merge for which the two are confused.
-/
namespace Ripsrc.ExMarker
open Spec Ex

/-- The file name. -/
def p : Str := b!"@@@del@@@x"

def t1 : List (Str × List Str) := [(b!"x", [b!"a", b!"c"])]
def t2 : List (Str × List Str) := [(p, [b!"b"]), (b!"x", [b!"a", b!"c"])]
def t4 : List (Str × List Str) := [(p, [b!"b", b!"d"])]
def t4' : List (Str × List Str) := [(p, [b!"b", b!"d"]), (b!"x", [b!"a", b!"c"])]

/-- The root creates `x`. -/
def k1 : HCommit where
  hash := b!"k1"
  parents := []
  tree := assocTree t1
  diffs := [[createF b!"x" [b!"a", b!"c"]]]

/-- Two branches create the file `@@@del@@@x`, with the same content. -/
def k2 : HCommit where
  hash := b!"k2"
  parents := [b!"k1"]
  tree := assocTree t2
  diffs := [[createF p [b!"b"]]]

def k3 : HCommit where
  hash := b!"k3"
  parents := [b!"k1"]
  tree := assocTree t2
  diffs := [[createF p [b!"b"]]]

/-- The merge adds a line to `@@@del@@@x` and deletes `x`. -/
def k4 : HCommit where
  hash := b!"k4"
  parents := [b!"k2", b!"k3"]
  tree := assocTree t4
  diffs := [[appendF p b!"b" [b!"d"], removeF b!"x" [b!"a", b!"c"]], [appendF p b!"b" [b!"d"], removeF b!"x" [b!"a", b!"c"]]]

/-- The same merge, but `x` is kept. -/
def k4' : HCommit where
  hash := b!"k4"
  parents := [b!"k2", b!"k3"]
  tree := assocTree t4'
  diffs := [[appendF p b!"b" [b!"d"]], [appendF p b!"b" [b!"d"]]]

def H : History := [k1, k2, k3, k4]
def H' : History := [k1, k2, k3, k4']

theorem ok1 : (createF b!"x" [b!"a", b!"c"]).Ok :=
  ⟨⟨by decide, by decide, by decide⟩, by simp [createF], by simpa [createF] using other1, ⟨by decide, by decide⟩, by decide⟩
theorem ok2 : (createF p [b!"b"]).Ok :=
  ⟨⟨by decide, by decide, by decide⟩, by simp [createF], by simpa [createF] using other1, ⟨by decide, by decide⟩, by decide⟩
theorem ok3 : (appendF p b!"b" [b!"d"]).Ok :=
  ⟨by show NameOk _; decide, by simp [appendF], by simpa [appendF] using other2, ⟨by decide, by decide⟩, by decide⟩
theorem ok4 : (removeF b!"x" [b!"a", b!"c"]).Ok :=
  ⟨⟨by decide, by decide, by decide⟩, by simp [removeF], by simpa [removeF] using other3, ⟨by decide, by decide⟩, by decide⟩

theorem d1 : Describes emptyTree (assocTree t1) [createF b!"x" [b!"a", b!"c"]] :=
  describes_assoc (o := []) (by simpa using ok1) (by simp [createF, Kind.prev]) (by decide) (by simp only [List.mem_singleton, forall_eq]; exact ⟨rfl, rfl, by decide⟩)
    (by decide) (by decide) (by simp) (by decide)
theorem d2 : Describes (assocTree t1) (assocTree t2) [createF p [b!"b"]] :=
  describes_assoc (by simpa using ok2) (by simp [createF, Kind.prev]) (by decide) (by simp only [List.mem_singleton, forall_eq]; exact ⟨rfl, rfl, by decide⟩)
    (by decide) (by decide) (by simp) (by decide)
theorem d4 : Describes (assocTree t2) (assocTree t4) [appendF p b!"b" [b!"d"], removeF b!"x" [b!"a", b!"c"]] :=
  describes_assoc (by simpa using ⟨ok3, ok4⟩) (by decide) (by decide)
    (by simp only [List.mem_cons, List.not_mem_nil, or_false, forall_eq_or_imp, forall_eq]; exact ⟨⟨rfl, rfl, by decide⟩, ⟨rfl, rfl, by decide⟩⟩)
    (by decide) (by decide) (by decide) (by decide)
theorem d4' : Describes (assocTree t2) (assocTree t4') [appendF p b!"b" [b!"d"]] :=
  describes_assoc (by simpa using ok3) (by decide) (by decide) (by simp only [List.mem_singleton, forall_eq]; exact ⟨rfl, rfl, by decide⟩)
    (by decide) (by decide) (by simp) (by decide)

/-- The entries of a commit of the example. -/
def entries (c : HCommit) : List LogEntry :=
  if c.parents.length ≤ 1 then [entryOf c.hash none (c.diffs.headD [])]
  else (c.parents.zip c.diffs).map (fun x => entryOf c.hash (some x.1) x.2)

theorem regular_paths {c : HCommit} {l : List (Str × List Str)} (ht : c.tree = assocTree l) (hr : c.Regular) (h : ∀ p ∈ l.map Prod.fst, p ≠ []) : c.PathsOk := by
  intro q hq
  rw [ht] at hq
  exact ⟨h q (assocTree_some hq), fun hm => absurd hr hm⟩

/-- The history up to the merge is well formed, in spite of the file name. -/
theorem prefix_ok : k1.Ok [] ∧ k2.Ok [k1] ∧ k3.Ok [k1, k2] := by
  refine ⟨⟨by simp, by decide, by decide, regular_paths rfl (by decide) (by decide), fun _ => ⟨_, rfl, d1⟩, fun h => absurd rfl h, by simp [k1]⟩,
    ⟨by decide, by decide, by decide, regular_paths rfl (by decide) (by decide), fun h => absurd h (by decide), fun _ => rfl, ?_⟩,
    ⟨by decide, by decide, by decide, regular_paths rfl (by decide) (by decide), fun h => absurd h (by decide), fun _ => rfl, ?_⟩⟩
  · intro x hx
    simp only [k2, List.zip_cons_cons, List.zip_nil_right, List.mem_singleton] at hx
    subst hx
    exact d2
  · intro x hx
    simp only [k3, List.zip_cons_cons, List.zip_nil_right, List.mem_singleton] at hx
    subst hx
    exact d2

/-- The merge that keeps `x` is well formed: such file names are allowed. -/
theorem history_ok : History.Ok [] H' := by
  refine ⟨prefix_ok.1, prefix_ok.2.1, prefix_ok.2.2, ⟨by decide, by decide, by decide, ?_, fun h => absurd h (by decide), fun _ => rfl, ?_⟩, trivial⟩
  · intro q hq
    refine ⟨?_, ?_⟩
    · have : ∀ p ∈ t4'.map Prod.fst, p ≠ [] := by decide
      exact this q (assocTree_some hq)
    · rintro _ r ⟨cs, hcs, f, hf, hn, _⟩ _
      have : ∀ cs ∈ k4'.diffs, ∀ f ∈ cs, f.kind.next ≠ [] := by decide
      exact this cs hcs f hf hn
  · intro x hx
    simp only [k4', List.zip_cons_cons, List.zip_nil_right, List.mem_cons, List.not_mem_nil, or_false] at hx
    rcases hx with rfl | rfl
    · exact d4'
    · exact d4'

def parents : GoMap Str (List Str) := H.map (fun c => (c.hash, c.parents))

/-- The run over the log of `H`. -/
def out (order : Nat → Nat → List Str → List Str) : Go RunOut :=
  (parseLog (logText (H.flatMap entries))).map (fun log => run { Ex.env with order := order } {} (fun _ => .ok []) (Graph.newFromMap parents parents) log)

end Ripsrc.ExMarker

namespace Ripsrc
open Spec

set_option maxRecDepth 100000 in
/-- **C27 fails for a merge that deletes `x` and changes a file with the name `@@@del@@@x`** (all other conditions on the history hold). The merge `k4` adds a line to this file, which differs from both
parents. The run succeeds, but the result of the merge has the deleted file only, and the state that is written to the checkpoint has the file without the new line. -/
theorem C27_marker_collision :
    (ExMarker.k1.Ok [] ∧ ExMarker.k2.Ok [ExMarker.k1] ∧ ExMarker.k3.Ok [ExMarker.k1, ExMarker.k2]) ∧
    (∀ x ∈ ExMarker.k4.parents.zip ExMarker.k4.diffs, Describes (ExMarker.H.treeOf x.1) ExMarker.k4.tree x.2) ∧
    ExMarker.k4.Writes ExMarker.H b!"@@@del@@@x" ∧ ExMarker.k4.tree b!"@@@del@@@x" = some [b!"b", b!"d"] ∧
    ∃ out, ExMarker.out (fun _ _ l => l) = .ok out ∧ out.fault = none ∧ out.sent.map (·.commit) = [b!"k1", b!"k2", b!"k3", b!"k4"] ∧
      (out.sent.getLast?.map (fun r => GoMap.keys r.files)) = some [b!"x"] ∧
      (out.written.map (fun w => (w.2, GoMap.get ((GoMap.get w.1 b!"k4").getD []) b!"@@@del@@@x"))) = some (b!"k4", some { commit := b!"k3", lines := [⟨b!"b", b!"k3"⟩] }) := by
  refine ⟨ExMarker.prefix_ok, ?_, ⟨by decide, by decide, Or.inr (Or.inl (by decide))⟩, by decide, ?_⟩
  · intro x hx
    simp only [ExMarker.k4, List.zip_cons_cons, List.zip_nil_right, List.mem_cons, List.not_mem_nil, or_false] at hx
    rcases hx with rfl | rfl
    · exact ExMarker.d4
    · exact ExMarker.d4
  · cases h : ExMarker.out (fun _ _ l => l) with
    | error e => 
      have : (ExMarker.out (fun _ _ l => l)).isOk = true := by decide +kernel
      rw [h] at this
      cases this
    | ok o =>
      have h1 : (ExMarker.out (fun _ _ l => l)).toOption.map (fun out => out.fault.isNone) = some true := by decide +kernel
      have h2 : (ExMarker.out (fun _ _ l => l)).toOption.map (fun out => out.sent.map (·.commit)) = some [b!"k1", b!"k2", b!"k3", b!"k4"] := by decide +kernel
      have h3 : (ExMarker.out (fun _ _ l => l)).toOption.map (fun out => out.sent.getLast?.map (fun r => GoMap.keys r.files)) = some (some [b!"x"]) := by decide +kernel
      have h4 : (ExMarker.out (fun _ _ l => l)).toOption.map (fun out => out.written.map (fun w => (w.2, GoMap.get ((GoMap.get w.1 b!"k4").getD []) b!"@@@del@@@x"))) =
          some (some (b!"k4", some { commit := b!"k3", lines := [⟨b!"b", b!"k3"⟩] })) := by decide +kernel
      rw [h] at h1 h2 h3 h4
      simp only [Except.toOption, Option.map_some, Option.some.injEq] at h1 h2 h3 h4
      exact ⟨o, rfl, by simpa using h1, h2, h3, h4⟩

end Ripsrc
