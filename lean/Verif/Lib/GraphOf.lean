import Verif.Lib.Run
import Verif.Lib.Sub
import Verif.Props.Graph
/-!
# The commit graph of a history
-/
namespace Ripsrc
open Spec

/-- The graph built from the parents of the commits has the parents and at least the children of the history. -/
theorem graphOf_build {H : History} (hH : History.Ok [] H) {m : GoMap Str (List Str)} (hwf : m.WF) {order : List (Str × List Str)}
    (hperm : order.Perm m) (hm : ∀ c ∈ H, GoMap.get m c.hash = some c.parents) : GraphOf (Graph.newFromMap m order) H := by
  obtain ⟨h1, _, _⟩ := C13_children_inverse m hwf order hperm
  refine ⟨hm, fun p => ?_⟩
  have hnd : ((H.filter (fun c => decide (p ∈ c.parents))).map (·.hash)).Nodup :=
    List.Sublist.nodup ((List.filter_sublist).map _) (history_nodup hH)
  have hsub : ∀ x ∈ (H.filter (fun c => decide (p ∈ c.parents))).map (·.hash), x ∈ (Graph.newFromMap m order).childrenOf p := by
    intro x hx
    obtain ⟨c, hc, rfl⟩ := List.mem_map.1 hx
    rw [List.mem_filter] at hc
    have hp : p ∈ c.parents := by simpa using hc.2
    have : ((Graph.newFromMap m order).parentsOf c.hash) = c.parents := by
      unfold Graph.parentsOf
      rw [show (Graph.newFromMap m order).parents = m from rfl, hm c hc.1]
      rfl
    rw [← List.count_pos_iff, h1, this]
    exact List.count_pos_iff.2 hp
  have := (List.subperm_of_subset hnd hsub).length_le
  rw [List.length_map] at this
  exact this

/-- If the graph has no other children of `p`, then the number of children is exact. -/
theorem childLen_build {H : History} (hH : History.Ok [] H) {m : GoMap Str (List Str)} (hwf : m.WF) {order : List (Str × List Str)}
    (hperm : order.Perm m) (hm : ∀ c ∈ H, GoMap.get m c.hash = some c.parents) (p : Str)
    (hall : ∀ d, (Graph.newFromMap m order).Parent d p → ∃ c ∈ H, c.hash = d) :
    childLen (Graph.newFromMap m order) p = nc H p := by
  obtain ⟨h1, _, _⟩ := C13_children_inverse m hwf order hperm
  have hpar : ∀ c ∈ H, (Graph.newFromMap m order).parentsOf c.hash = c.parents := by
    intro c hc
    unfold Graph.parentsOf
    rw [show (Graph.newFromMap m order).parents = m from rfl, hm c hc]
    rfl
  have hge := (graphOf_build hH hwf hperm hm).children p
  have hle : ((Graph.newFromMap m order).childrenOf p).length ≤ nc H p := by
    have hcount : ∀ d, ((Graph.newFromMap m order).childrenOf p).count d ≤ 1 ∧
        (d ∈ (Graph.newFromMap m order).childrenOf p → d ∈ (H.filter (fun c => decide (p ∈ c.parents))).map (·.hash)) := by
      intro d
      rw [h1]
      by_cases hd : ∃ c ∈ H, c.hash = d
      · obtain ⟨c, hc, rfl⟩ := hd
        rw [hpar c hc]
        have hcok : ∃ b, c.Ok b := by
          obtain ⟨a, r, hh⟩ := List.append_of_mem hc
          exact ⟨a, history_ok_at (r := r) (hh ▸ hH)⟩
        obtain ⟨b, hb⟩ := hcok
        refine ⟨List.nodup_iff_count.1 hb.parentsOnce p, fun hmem => ?_⟩
        rw [← List.count_pos_iff, h1, hpar c hc] at hmem
        exact List.mem_map.2 ⟨c, List.mem_filter.2 ⟨hc, by simpa using List.count_pos_iff.1 hmem⟩, rfl⟩
      · have hn : p ∉ (Graph.newFromMap m order).parentsOf d := fun h => hd (hall d h)
        rw [List.count_eq_zero_of_not_mem hn]
        refine ⟨by omega, fun hmem => ?_⟩
        rw [← List.count_pos_iff, h1, List.count_eq_zero_of_not_mem hn] at hmem
        omega
    have hnd : ((Graph.newFromMap m order).childrenOf p).Nodup := List.nodup_iff_count.2 (fun d => (hcount d).1)
    have := (List.subperm_of_subset hnd (fun d hd => (hcount d).2 hd)).length_le
    rw [List.length_map] at this
    exact this
  exact Nat.le_antisymm hle hge

end Ripsrc
