import Verif.Lib.Graph
import Verif.Spec.Graph
/-!
# C12, C13: the commit graph
-/
namespace Ripsrc
open Spec

/-! ## C12 -/

/-- **C12.** Reading the text printed by `git log --pretty=format:%H@%P` for a list of commits (a commit may be printed
more than once, with the same parents) succeeds and gives a map in which a hash is present exactly if it was printed,
with exactly its parents in order. -/
theorem C12_graph_reader (cs : List (Str × List Str))
    (hhash : ∀ c ∈ cs, IsHash c.1 ∧ ∀ p ∈ c.2, IsHash p)
    (hcons : ∀ c ∈ cs, ∀ d ∈ cs, c.1 = d.1 → c = d)
    (hlen : ∀ c ∈ cs, (parentsLineOf c).length < 1000000) :
    ∃ m, parentsRun (parentsText cs) = .ok m ∧ m.WF ∧ ∀ h ps, m.get h = some ps ↔ (h, ps) ∈ cs := by
  refine ⟨cs.foldl (fun m c => m.set c.1 c.2) [], ?_, foldl_set_wf _ _ GoMap.wf_nil, ?_⟩
  · have hfree : ∀ b : UInt8, isHex b = false → b ≠ 64 → b ≠ 32 → ∀ l ∈ cs.map parentsLineOf, b ∉ l := by
      intro b hb h64 h32 l hl
      obtain ⟨c, hc, rfl⟩ := List.mem_map.1 hl
      obtain ⟨h1, h2⟩ := hhash c hc
      unfold parentsLineOf
      simp only [List.mem_append, List.mem_singleton, not_or]
      exact ⟨⟨h1.not_mem hb, h64⟩, not_mem_joinWith (by simpa using h32) (fun l hl => (h2 l hl).not_mem hb)⟩
    have hraw : rawLines (parentsText cs) = cs.map parentsLineOf := by
      apply rawLines_join
      · exact hfree 10 (by decide) (by decide) (by decide)
      · intro l hl
        obtain ⟨c, hc, rfl⟩ := List.mem_map.1 hl
        simp [parentsLineOf]
    have hscan : scan parentsMaxLine (parentsText cs) = (cs.map parentsLineOf, false) := by
      unfold scan
      rw [hraw, scanRaw_ok]
      · congr 1
        have : ∀ l ∈ cs.map parentsLineOf, dropCR l = l := fun l hl =>
          dropCR_of_not_mem (hfree 13 (by decide) (by decide) (by decide) l hl)
        exact (List.map_congr_left this).trans (by simp)
      · intro l hl
        obtain ⟨c, hc, rfl⟩ := List.mem_map.1 hl
        exact hlen c hc
    unfold parentsRun
    rw [hscan]
    simp only [parentsFold cs [] hhash, Except.bind, bind]
    simp
  · intro h ps
    obtain ⟨g1, g2⟩ := foldl_set_get cs [] hcons h
    constructor
    · intro hg
      apply Classical.byContradiction
      intro hno
      by_cases hin : ∃ qs, (h, qs) ∈ cs
      · obtain ⟨qs, hqs⟩ := hin
        have := g1 qs hqs
        rw [hg] at this
        cases this
        exact hno hqs
      · rw [g2 (fun qs hqs => hin ⟨qs, hqs⟩)] at hg
        simp at hg
    · exact g1 ps

example : ∃ cs : List (Str × List Str), cs.length = 3 ∧ (∀ c ∈ cs, IsHash c.1 ∧ ∀ p ∈ c.2, IsHash p) ∧
    (∀ c ∈ cs, ∀ d ∈ cs, c.1 = d.1 → c = d) ∧ (∀ c ∈ cs, (parentsLineOf c).length < 1000000) :=
  ⟨[(b!"a1", []), (b!"b2", [b!"a1"]), (b!"c3", [b!"b2", b!"a1"])], by decide, by decide, by decide, by decide⟩

/-- C12, error side: a line of 1,000,000 bytes or more is reported as an error, never a partial graph. -/
theorem C12_too_long (pre : List (Str × List Str)) (l : Str) (rest : Str)
    (hpre : ∀ c ∈ pre, IsHash c.1 ∧ ∀ p ∈ c.2, IsHash p)
    (hlen : ∀ c ∈ pre, (parentsLineOf c).length < 1000000) (hl : NoNL l) (hlong : 1000000 ≤ l.length) :
    parentsRun (unlines (pre.map parentsLineOf) ++ l ++ 10 :: rest)
      = .error (.error "bufio.Scanner: token too long") := by
  have hfree : ∀ b : UInt8, isHex b = false → b ≠ 64 → b ≠ 32 → ∀ l ∈ pre.map parentsLineOf, b ∉ l := by
    intro b hb h64 h32 l hl
    obtain ⟨c, hc, rfl⟩ := List.mem_map.1 hl
    obtain ⟨h1, h2⟩ := hpre c hc
    unfold parentsLineOf
    simp only [List.mem_append, List.mem_singleton, not_or]
    exact ⟨⟨h1.not_mem hb, h64⟩, not_mem_joinWith (by simpa using h32) (fun l hl => (h2 l hl).not_mem hb)⟩
  have hraw : rawLines (unlines (pre.map parentsLineOf) ++ l ++ 10 :: rest)
      = pre.map parentsLineOf ++ l :: rawLines rest := by
    rw [List.append_assoc, rawLines_unlines_append _ _ (hfree 10 (by decide) (by decide) (by decide)),
      rawLines_line _ _ hl]
  have hscan : scan parentsMaxLine (unlines (pre.map parentsLineOf) ++ l ++ 10 :: rest)
      = (pre.map parentsLineOf, true) := by
    unfold scan
    rw [hraw, scanRaw_tooLong parentsMaxLine _ _ _ _ hlong]
    · congr 1
      have : ∀ l ∈ pre.map parentsLineOf, dropCR l = l := fun l hl =>
        dropCR_of_not_mem (hfree 13 (by decide) (by decide) (by decide) l hl)
      exact (List.map_congr_left this).trans (by simp)
    · intro l hl
      obtain ⟨c, hc, rfl⟩ := List.mem_map.1 hl
      exact hlen c hc
  unfold parentsRun
  rw [hscan]
  simp only [parentsFold pre [] hpre, Except.bind, bind]
  simp

/-! ## C13 -/

/-- **C13.** For every commit graph and every iteration order of Go's map: `c` occurs among the children of `p` exactly
as often as `p` occurs among the parents of `c`; every commit and every parent has an entry and nothing else has; the
lists are sorted. -/
theorem C13_children_inverse (parents : GoMap Str (List Str)) (hwf : parents.WF)
    (order : List (Str × List Str)) (horder : order.Perm parents) :
    let g := Graph.newFromMap parents order
    (∀ p c, (g.childrenOf p).count c = (g.parentsOf c).count p) ∧
    (∀ k, (g.children.get k).isSome ↔ (parents.get k).isSome ∨ ∃ c, k ∈ g.parentsOf c) ∧
    (∀ p, Sorted strLe (g.childrenOf p)) := by
  intro g
  have hwo : GoMap.WF order := GoMap.wf_perm horder.symm hwf
  obtain ⟨f1, f2, f3⟩ := childrenFold_spec order [] GoMap.wf_nil
  have hget : ∀ k, g.children.get k = ((order.foldl childrenStep []).get k).map sortStrings :=
    fun k => map_get_sort _ k
  have hgo : ∀ k, GoMap.get order k = parents.get k := fun k => GoMap.get_perm horder hwo k
  refine ⟨?_, ?_, ?_⟩
  · intro p c
    have : g.childrenOf p = sortStrings (((order.foldl childrenStep []).get p).getD []) := by
      unfold Graph.childrenOf
      rw [hget]
      cases (order.foldl childrenStep []).get p <;> rfl
    rw [this, (sortStrings_perm _).count_eq, f3, count_sum_unique _ hwo, hgo]
    simp [Graph.parentsOf, g, Graph.newFromMap]
  · intro k
    rw [hget, Option.isSome_map, GoMap.get_isSome_iff, f2]
    have : ∀ e ∈ order, parents.get e.1 = some e.2 := fun e he => by
      rw [← hgo]; exact GoMap.get_of_mem hwo he
    constructor
    · rintro (h | ⟨e, he, rfl | h⟩)
      · simp [GoMap.keys] at h
      · left; simp [this e he]
      · right; exact ⟨e.1, by simp [Graph.parentsOf, g, Graph.newFromMap, this e he, h]⟩
    · rintro (h | ⟨c, hc⟩)
      · right
        obtain ⟨ps, hps⟩ := Option.isSome_iff_exists.1 h
        rw [← hgo] at hps
        exact ⟨(k, ps), GoMap.mem_of_get hps, Or.inl rfl⟩
      · right
        cases hps : parents.get c with
        | none => simp [Graph.parentsOf, g, Graph.newFromMap, hps] at hc
        | some ps =>
          simp [Graph.parentsOf, g, Graph.newFromMap, hps] at hc
          rw [← hgo] at hps
          exact ⟨(c, ps), GoMap.mem_of_get hps, Or.inr hc⟩
  · intro p
    unfold Graph.childrenOf
    rw [hget]
    cases (order.foldl childrenStep []).get p with
    | none => simp [Sorted]
    | some l => exact sortStrings_sorted l

/-- **C13, order independence.** The children recorded do not depend on the iteration order. -/
theorem C13_order_independent (parents : GoMap Str (List Str)) (hwf : parents.WF)
    (o₁ o₂ : List (Str × List Str)) (h₁ : o₁.Perm parents) (h₂ : o₂.Perm parents) (k : Str) :
    (Graph.newFromMap parents o₁).children.get k = (Graph.newFromMap parents o₂).children.get k := by
  obtain ⟨a1, a2, a3⟩ := C13_children_inverse parents hwf o₁ h₁
  obtain ⟨b1, b2, b3⟩ := C13_children_inverse parents hwf o₂ h₂
  have hs := (a2 k).trans (b2 k).symm
  have hl : (Graph.newFromMap parents o₁).childrenOf k = (Graph.newFromMap parents o₂).childrenOf k := by
    apply sorted_perm_unique (le := strLe) (fun a _ b _ => strLe_antisymm a b) _ (a3 k) (b3 k)
    rw [List.perm_iff_count]
    intro c
    rw [a1, b1]; rfl
  unfold Graph.childrenOf at hl
  cases h1 : (Graph.newFromMap parents o₁).children.get k with
  | none =>
    cases h2 : (Graph.newFromMap parents o₂).children.get k with
    | none => rfl
    | some l => simp [h1, h2] at hs
  | some l =>
    cases h2 : (Graph.newFromMap parents o₂).children.get k with
    | none => simp [h1, h2] at hs
    | some l' => simp only [h1, h2, Option.getD_some] at hl; rw [hl]

example : ∃ parents : GoMap Str (List Str), parents.WF ∧ ∃ o, o.Perm parents ∧ o ≠ parents ∧
    (Graph.newFromMap parents o).childrenOf b!"a" = [b!"b", b!"c"] :=
  ⟨[(b!"a", []), (b!"b", [b!"a"]), (b!"c", [b!"a"])], by decide,
    [(b!"c", [b!"a"]), (b!"b", [b!"a"]), (b!"a", [])], by decide, by decide, by decide⟩

end Ripsrc
