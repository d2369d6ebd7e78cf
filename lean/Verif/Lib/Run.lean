import Verif.Lib.MergeAll
import Verif.Props.GitLog
import Mathlib.Data.List.Perm.Subperm
/-!
# The loop over the log
-/
namespace Ripsrc
open Spec

/-- Number of commits with parent `p`. -/
def nc (H : History) (p : Str) : Nat := (H.filter (fun c => decide (p ∈ c.parents))).length

theorem nc_append (a b : History) (p : Str) : nc (a ++ b) p = nc a p + nc b p := by simp [nc]

theorem nc_cons (c : HCommit) (b : History) (p : Str) : nc (c :: b) p = (if p ∈ c.parents then 1 else 0) + nc b p := by
  unfold nc
  rw [List.filter_cons]
  split <;> simp_all
  omega

theorem nc_pos {H : History} {p : Str} (h : nc H p ≠ 0) : ∃ d ∈ H, p ∈ d.parents := by
  unfold nc at h
  obtain ⟨d, hd⟩ := List.exists_mem_of_ne_nil (H.filter (fun (c : HCommit) => decide (p ∈ c.parents))) (fun he => h (by rw [he]; rfl))
  rw [List.mem_filter] at hd
  exact ⟨d, hd.1, by simpa using hd.2⟩

theorem nc_of_mem {H : History} {p : Str} {d : HCommit} (hd : d ∈ H) (hp : p ∈ d.parents) : nc H p ≠ 0 := by
  unfold nc
  intro h
  have : d ∈ H.filter (fun c => decide (p ∈ c.parents)) := List.mem_filter.2 ⟨hd, by simpa using hp⟩
  rw [List.eq_nil_of_length_eq_zero h] at this
  cases this

/-- The graph knows the parents of all commits and counts at least their children. -/
structure GraphOf (g : Graph) (H : History) : Prop where
  parents : ∀ c ∈ H, GoMap.get g.parents c.hash = some c.parents
  children : ∀ p, nc H p ≤ ((GoMap.get g.children p).getD []).length

/-- `s'` is `s` but for the bookkeeping of children and the stored files. -/
structure SameRun (s s' : Proc) : Prop where
  graph : s'.graph = s.graph
  sent : s'.sent = s.sent
  parts : s'.mergeParts = s.mergeParts
  partsCommit : s'.mergePartsCommit = s.mergePartsCommit
  last : s'.lastProcessed = s.lastProcessed

theorem trimParent_same (s : Proc) (p : Str) : SameRun s (s.trimParent p) := by
  unfold Proc.trimParent
  simp only
  split <;> exact ⟨rfl, rfl, rfl, rfl, rfl⟩

theorem SameRun.trans {a b c : Proc} (h1 : SameRun a b) (h2 : SameRun b c) : SameRun a c :=
  ⟨h2.graph.trans h1.graph, h2.sent.trans h1.sent, h2.parts.trans h1.parts, h2.partsCommit.trans h1.partsCommit, h2.last.trans h1.last⟩

theorem trim_same (s : Proc) (h : Str) : SameRun s (s.trim h) := by
  unfold Proc.trim
  generalize s.parents h = ps
  induction ps generalizing s with
  | nil => exact ⟨rfl, rfl, rfl, rfl, rfl⟩
  | cons p ps ih => exact (trimParent_same s p).trans (ih _)

/-- Number of children in the graph. -/
def childLen (g : Graph) (p : Str) : Nat := ((GoMap.get g.children p).getD []).length

/-- The bookkeeping of children and of the unloader; `f` counts the processed children. -/
structure TInv (g : Graph) (s : Proc) (f : Str → Nat) : Prop where
  graph : s.graph = g
  cp : ∀ p, (GoMap.get s.childrenProcessed p).getD 0 = f p
  len : s.toUnload.length ≤ 1000
  nodup : s.toUnload.Nodup
  fin : ∀ x ∈ s.toUnload, childLen g x ≤ f x ∧ f x ≠ 0
  gone : ∀ x, f x ≠ 0 → f x = childLen g x → x ∈ s.toUnload ∨ GoMap.get s.repo x = none

/-- `q` is dropped: it is one of 1001 commits whose children are all processed. -/
def Dropped (g : Graph) (f : Str → Nat) (q : Str) : Prop :=
  ∃ l : List Str, l.Nodup ∧ l.length = 1001 ∧ q ∈ l ∧ ∀ x ∈ l, childLen g x ≤ f x ∧ f x ≠ 0

theorem trimParent_inv {g : Graph} {s : Proc} {f : Str → Nat} (h : TInv g s f) (p : Str) :
    TInv g (s.trimParent p) (fun x => f x + if x = p then 1 else 0) ∧
    ∀ q, GoMap.get (s.trimParent p).repo q = GoMap.get s.repo q ∨
      (GoMap.get (s.trimParent p).repo q = none ∧ Dropped g (fun x => f x + if x = p then 1 else 0) q) := by
  have hcp : ∀ x, (GoMap.get (GoMap.set s.childrenProcessed p ((GoMap.get s.childrenProcessed p).getD 0 + 1)) x).getD 0 =
      f x + if x = p then 1 else 0 := by
    intro x
    rw [GoMap.get_set]
    split
    · rename_i hx
      subst hx
      simp [h.cp]
    · rename_i hx
      rw [h.cp, if_neg (Ne.symm hx)]
      rfl
  have hfin : ∀ x ∈ s.toUnload, childLen g x ≤ (f x + if x = p then 1 else 0) ∧ (f x + if x = p then 1 else 0) ≠ 0 := by
    intro x hx
    have := h.fin x hx
    omega
  unfold Proc.trimParent
  simp only
  split
  · rename_i heq
    have heq' : f p + 1 = childLen g p := by
      rw [h.cp, h.graph] at heq
      exact heq
    have hnot : p ∉ s.toUnload := by
      intro hp
      have := (h.fin p hp).1
      omega
    have hnd : (p :: s.toUnload).Nodup := List.nodup_cons.2 ⟨hnot, h.nodup⟩
    have hall : ∀ x ∈ p :: s.toUnload, childLen g x ≤ (f x + if x = p then 1 else 0) ∧ (f x + if x = p then 1 else 0) ≠ 0 := by
      intro x hx
      by_cases hxp : x = p
      · subst hxp
        simp only [if_true]
        exact ⟨by omega, by omega⟩
      · rcases List.mem_cons.1 hx with h' | h'
        · exact absurd h' hxp
        · exact hfin x h'
    unfold unload
    simp only
    split
    · rename_i hlong
      have hl : s.toUnload.length = 1000 := by
        have := h.len
        simp only [List.length_cons, maxCommitsInCheckpoint] at hlong
        omega
      cases hlast : (p :: s.toUnload).getLast? with
      | none => simp at hlast
      | some last =>
        have hsplit : p :: s.toUnload = (p :: s.toUnload).dropLast ++ [last] := by
          rw [List.getLast?_eq_some_iff] at hlast
          obtain ⟨ys, hys⟩ := hlast
          rw [hys]
          simp
        simp only
        refine ⟨⟨h.graph, hcp, ?_, ?_, ?_, ?_⟩, ?_⟩
        · simp [hl]
        · exact (List.dropLast_sublist _).nodup hnd
        · exact fun x hx => hall x ((List.dropLast_sublist _).subset hx)
        · intro x h1 h2
          rw [GoMap.get_del]
          by_cases hx : last = x
          · exact Or.inr (by rw [if_pos hx])
          · have : x ∈ p :: s.toUnload ∨ GoMap.get s.repo x = none := by
              by_cases hxp : x = p
              · exact Or.inl (by simp [hxp])
              · rw [if_neg hxp] at h1 h2
                rcases h.gone x (by simpa using h1) (by simpa using h2) with h' | h'
                · exact Or.inl (List.mem_cons_of_mem _ h')
                · exact Or.inr h'
            rcases this with h' | h'
            · left
              rw [hsplit] at h'
              rcases List.mem_append.1 h' with h' | h'
              · exact h'
              · simp only [List.mem_singleton] at h'
                exact absurd h'.symm hx
            · right
              rw [if_neg hx]
              exact h'
        · intro q
          rw [GoMap.get_del]
          split
          · rename_i hq
            refine Or.inr ⟨rfl, p :: s.toUnload, hnd, by simp [hl], ?_, hall⟩
            rw [← hq]
            exact List.mem_of_getLast? hlast
          · exact Or.inl rfl
    · rename_i hlong
      refine ⟨⟨h.graph, hcp, ?_, hnd, hall, ?_⟩, fun q => Or.inl rfl⟩
      · simp only [maxCommitsInCheckpoint] at hlong
        simp only [List.length_cons] at hlong ⊢
        omega
      · intro x h1 h2
        by_cases hxp : x = p
        · exact Or.inl (by simp [hxp])
        · rw [if_neg hxp] at h1 h2
          rcases h.gone x (by simpa using h1) (by simpa using h2) with h' | h'
          · exact Or.inl (List.mem_cons_of_mem _ h')
          · exact Or.inr h'
  · rename_i heq
    have heq' : f p + 1 ≠ childLen g p := by
      rw [h.cp, h.graph] at heq
      exact heq
    refine ⟨⟨h.graph, hcp, h.len, h.nodup, hfin, ?_⟩, fun q => Or.inl rfl⟩
    · intro x h1 h2
      by_cases hxp : x = p
      · subst hxp
        simp only [if_true] at h2
        exact absurd h2 heq'
      · rw [if_neg hxp] at h1 h2
        exact h.gone x (by simpa using h1) (by simpa using h2)

theorem Dropped.mono {g : Graph} {f f' : Str → Nat} (hf : ∀ x, f x ≤ f' x) {q : Str} (h : Dropped g f q) : Dropped g f' q := by
  obtain ⟨l, h1, h2, h3, h4⟩ := h
  refine ⟨l, h1, h2, h3, fun x hx => ?_⟩
  have := h4 x hx
  have := hf x
  omega

theorem trim_inv {g : Graph} {s : Proc} {f : Str → Nat} (h : TInv g s f) {c : HCommit} (hpar : s.parents c.hash = c.parents)
    (hnodup : c.parents.Nodup) :
    TInv g (s.trim c.hash) (fun x => f x + if x ∈ c.parents then 1 else 0) ∧
    ∀ q, GoMap.get (s.trim c.hash).repo q = GoMap.get s.repo q ∨
      (GoMap.get (s.trim c.hash).repo q = none ∧ Dropped g (fun x => f x + if x ∈ c.parents then 1 else 0) q) := by
  unfold Proc.trim
  rw [hpar]
  generalize c.parents = ps at hnodup
  clear hpar
  induction ps generalizing s f with
  | nil => exact ⟨by simpa using h, fun q => Or.inl rfl⟩
  | cons p ps ih =>
    rw [List.nodup_cons] at hnodup
    obtain ⟨t1, t2⟩ := trimParent_inv h p
    obtain ⟨u1, u2⟩ := ih t1 hnodup.2
    have hf : (fun x => (f x + if x = p then 1 else 0) + if x ∈ ps then 1 else 0) = fun x => f x + if x ∈ p :: ps then 1 else 0 := by
      funext x
      by_cases hx : x = p
      · subst hx
        simp [hnodup.1]
      · simp [hx]
    rw [hf] at u1 u2
    refine ⟨u1, fun q => ?_⟩
    rw [List.foldl_cons]
    rcases u2 q with h' | h'
    · rcases t2 q with h'' | ⟨h'', hd⟩
      · exact Or.inl (h'.trans h'')
      · refine Or.inr ⟨h'.trans h'', hd.mono (fun x => ?_)⟩
        by_cases hx : x = p
        · subst hx; simp
        · simp [hx]
    · exact Or.inr h'

/-- Commit `x` is stored and, if it is in the list of commits to unload, only commits with `Q` come before it there. -/
def Recent (s : Proc) (Q : Str → Prop) (x : Str) : Prop :=
  (∃ fs, GoMap.get s.repo x = some fs) ∧
    (x ∉ s.toUnload ∨ ∃ n o : List Str, s.toUnload = n ++ x :: o ∧ ∀ y ∈ n ++ [x], Q y)

/-- There are at most 1000 with `Q`. -/
def Few (Q : Str → Prop) : Prop := ∀ l : List Str, l.Nodup → (∀ y ∈ l, Q y) → l.length ≤ 1000

theorem trimParent_recent {g : Graph} {s : Proc} {f : Str → Nat} (h : TInv g s f) {p : Str} {Q : Str → Prop} (hp : Q p) (hQ : Few Q) {x : Str}
    (hx : Recent s Q x) : Recent (s.trimParent p) Q x := by
  obtain ⟨⟨fs, hfs⟩, hpos⟩ := hx
  unfold Proc.trimParent
  simp only
  split
  · rename_i heq
    have heq' : f p + 1 = childLen g p := by
      rw [h.cp, h.graph] at heq
      exact heq
    have hnot : p ∉ s.toUnload := by
      intro hp
      have := (h.fin p hp).1
      omega
    have hnd : (p :: s.toUnload).Nodup := List.nodup_cons.2 ⟨hnot, h.nodup⟩
    have hpos' : x ∉ p :: s.toUnload ∨ ∃ n o : List Str, p :: s.toUnload = n ++ x :: o ∧ ∀ y ∈ n ++ [x], Q y := by
      by_cases hxp : x = p
      · subst hxp
        exact Or.inr ⟨[], s.toUnload, rfl, by simpa using hp⟩
      · rcases hpos with h' | ⟨n, o, h1, h2⟩
        · exact Or.inl (by simp [hxp, h'])
        · refine Or.inr ⟨p :: n, o, by rw [h1]; rfl, ?_⟩
          intro y hy
          rw [List.cons_append] at hy
          rcases List.mem_cons.1 hy with rfl | hy
          · exact hp
          · exact h2 y hy
    unfold unload
    simp only
    split
    · rename_i hlong
      have hl : s.toUnload.length = 1000 := by
        have := h.len
        simp only [List.length_cons, maxCommitsInCheckpoint] at hlong
        omega
      cases hlast : (p :: s.toUnload).getLast? with
      | none => simp at hlast
      | some last =>
        have hsplit : p :: s.toUnload = (p :: s.toUnload).dropLast ++ [last] := by
          rw [List.getLast?_eq_some_iff] at hlast
          obtain ⟨ys, hys⟩ := hlast
          rw [hys]
          simp
        simp only
        have hlen1 : (p :: s.toUnload).length = 1001 := by simp [hl]
        generalize p :: s.toUnload = u at *
        rcases hpos' with h' | ⟨n, o, h1, h2⟩
        · have hne : last ≠ x := by
            rintro rfl
            exact h' (List.mem_of_getLast? hlast)
          refine ⟨⟨fs, by simp only [GoMap.get_del, if_neg hne]; exact hfs⟩, Or.inl fun hm => h' ((List.dropLast_sublist _).subset hm)⟩
        · have ho : o ≠ [] := by
            rintro rfl
            have h3 := hQ (n ++ [x]) (by rw [← h1]; exact hnd) h2
            rw [← h1] at h3
            omega
          have hdl : u.dropLast = n ++ x :: o.dropLast := by
            rw [h1, List.dropLast_append_of_ne_nil (by simp), List.dropLast_cons_of_ne_nil ho]
          have hne : last ≠ x := by
            rintro rfl
            rw [hsplit, hdl] at hnd
            simp [List.nodup_append, List.nodup_cons] at hnd
          refine ⟨⟨fs, by simp only [GoMap.get_del, if_neg hne]; exact hfs⟩, Or.inr ⟨n, o.dropLast, hdl, h2⟩⟩
    · exact ⟨⟨fs, hfs⟩, hpos'⟩
  · exact ⟨⟨fs, hfs⟩, hpos⟩

theorem trim_recent {g : Graph} {s : Proc} {f : Str → Nat} (h : TInv g s f) {c : HCommit} (hpar : s.parents c.hash = c.parents)
    {Q : Str → Prop} (hp : ∀ p ∈ c.parents, Q p) (hQ : Few Q) {x : Str} (hx : Recent s Q x) : Recent (s.trim c.hash) Q x := by
  unfold Proc.trim
  rw [hpar]
  generalize c.parents = ps at hp
  clear hpar
  induction ps generalizing s f with
  | nil => exact hx
  | cons p ps ih =>
    rw [List.foldl_cons]
    exact ih (trimParent_inv h p).1 (trimParent_recent h (hp p (by simp)) hQ hx) (fun q hq => hp q (by simp [hq]))

/-- A result is right for commit `c`. -/
structure ResultOk (H : History) (G : Str → Str → List Str) (c : HCommit) (res : Result) : Prop where
  commit : res.commit = c.hash
  paths : ∀ p, GoMap.has res.files p = true ↔ c.Writes H p ∨ c.Deletes p
  written : ∀ p, c.Writes H p → (c.Regular ∨ ¬ c.Deletes p) → ∃ b n, GoMap.get res.files p = some b ∧ c.tree p = some n ∧
    Right H G c.hash p n b
  removed : ∀ p, c.Deletes p → ¬ c.Writes H p → ∃ b, GoMap.get res.files p = some b ∧ b.commit = c.hash ∧ b.lines = [] ∧
    (b.isBinary = true ↔ c.Regular ∧ c.DeletesBinary p)

theorem writes_tree {before : History} {H : History} {c : HCommit} (hcok : c.Ok before) {p : Str} (h : c.Writes H p) : ∃ n, c.tree p = some n := by
  obtain ⟨hp, ⟨cs, hcs, hx⟩, _⟩ := h
  obtain ⟨f, hf⟩ := Option.ne_none_iff_exists'.1 hx
  obtain ⟨h1, h2⟩ := changeOf_some hf
  have hd : ∃ t, Describes t c.tree cs := by
    by_cases hpar : c.parents = []
    · obtain ⟨cs', g1, g2⟩ := hcok.root hpar
      rw [g1] at hcs
      simp only [List.mem_singleton] at hcs
      subst hcs
      exact ⟨_, g2⟩
    · have hlen := hcok.count hpar
      obtain ⟨i, hi⟩ := List.mem_iff_getElem?.1 hcs
      have hil := (List.getElem?_eq_some_iff.1 hi).1
      refine ⟨_, hcok.diffs (c.parents[i]'(by omega), cs) ?_⟩
      rw [List.mem_iff_getElem?]
      exact ⟨i, by rw [List.getElem?_zip_eq_some]; exact ⟨List.getElem?_eq_getElem (by omega), hi⟩⟩
  obtain ⟨t, hd⟩ := hd
  have := hd.next f h1 (by rw [h2]; exact hp)
  rw [h2] at this
  exact Option.isSome_iff_exists.1 this

theorem CommitOk.result {H : History} {G : Str → Str → List Str} (hH : History.Ok [] H) {a r : History} {c : HCommit}
    (hsplit : H = a ++ c :: r) {repo repo' : Repo} {res : Result} (h : CommitOk H G c repo repo' res) : ResultOk H G c res := by
  have hc : c ∈ H := by rw [hsplit]; simp
  have hcok : c.Ok a := history_ok_at (r := r) (hsplit ▸ hH)
  refine ⟨h.commit, h.paths, ?_, h.removed⟩
  intro p hw hd
  obtain ⟨fs, h1, h2, h3⟩ := h.files
  obtain ⟨n, hn⟩ := writes_tree hcok hw
  obtain ⟨b, hb, hr⟩ := h2 p n (by rw [treeOf_of_mem hH hc]; exact hn)
  exact ⟨b, n, by rw [h3 p hw hd]; exact hb, hn, hr⟩

/-- The state between commits: `done` is processed, `rest` is to come; the results are for the commits of `done` after the first
`k`. -/
structure PInv (H : History) (G : Str → Str → List Str) (g : Graph) (k : Nat) (done rest : History) (s : Proc) : Prop where
  split : H = done ++ rest
  book : TInv g s (fun p => nc (done.drop k) p)
  stored : ∀ c ∈ done, ∀ fs, GoMap.get s.repo c.hash = some fs → RightFiles H G c.hash fs
  kept : ∀ c ∈ done, nc rest c.hash ≠ 0 → ∃ fs, GoMap.get s.repo c.hash = some fs
  heads : ∀ c ∈ done.drop k, nc H c.hash = 0 ∨ H.length ≤ 1000 → ∃ fs, GoMap.get s.repo c.hash = some fs
  recent : ∀ d1 d2 : History, done.drop k = d1 ++ d2 → Few (fun y => ∃ d ∈ d2, y ∈ d.parents) →
    ∀ c ∈ done, (c ∈ d2 ∨ ∃ d ∈ d2, c.hash ∈ d.parents) → Recent s (fun y => ∃ d ∈ d2, y ∈ d.parents) c.hash
  sentLen : s.sent.length = (done.drop k).length
  sentOk : ∀ (i : Nat) c res, (done.drop k)[i]? = some c → s.sent[i]? = some res → ResultOk H G c res
  last : (done.drop k).getLast?.map (·.hash) = if s.sent = [] then none else some s.lastProcessed

theorem PInv.parents {H : History} {G : Str → Str → List Str} {g : Graph} {k : Nat} {done rest : History} {c : HCommit} {s : Proc}
    (hH : History.Ok [] H) (h : PInv H G g k done (c :: rest) s) :
    ∀ q ∈ c.parents, ∃ fs, GoMap.get s.repo q = some fs ∧ RightFiles H G q fs := by
  intro q hq
  have hcok : c.Ok done := history_ok_at (r := rest) (h.split ▸ hH)
  obtain ⟨x, hx, rfl⟩ := hcok.parentsKnown q hq
  obtain ⟨fs, hfs⟩ := h.kept x hx (nc_of_mem (d := c) (by simp) hq)
  exact ⟨fs, hfs, h.stored x hx fs hfs⟩

theorem nc_drop_le (H : History) (k : Nat) (p : Str) : nc (H.drop k) p ≤ nc H p := by
  unfold nc
  exact ((List.drop_sublist k H).filter _).length_le

/-- The trimming after commit `c`. -/
theorem PInv.trim {H : History} {G : Str → Str → List Str} {g : Graph} (hg : GraphOf g H) {k : Nat} {done rest : History} {c : HCommit}
    {s : Proc} (hH : History.Ok [] H) (h : PInv H G g k done (c :: rest) s) (hk : k ≤ done.length) {s1 : Proc}
    (h1 : SameBut c.hash s.repo s1.repo) (h2 : s1.graph = s.graph)
    (h3 : s1.childrenProcessed = s.childrenProcessed) (h4 : s1.toUnload = s.toUnload) :
    TInv g (s1.trim c.hash) (fun p => nc ((done ++ [c]).drop k) p) ∧
    (∀ q, GoMap.get (s1.trim c.hash).repo q = GoMap.get s1.repo q ∨
      (GoMap.get (s1.trim c.hash).repo q = none ∧ nc rest q = 0 ∧ nc H q ≠ 0 ∧ 1000 < H.length)) ∧
    (∀ Q : Str → Prop, (∀ p ∈ c.parents, Q p) → Few Q → ∀ x, Recent s1 Q x → Recent (s1.trim c.hash) Q x) := by
  have hcok : c.Ok done := history_ok_at (r := rest) (h.split ▸ hH)
  have hc : c ∈ H := by rw [h.split]; simp
  have hself : nc done c.hash = 0 := by
    apply Classical.byContradiction
    intro hn
    obtain ⟨d, hd, hp⟩ := nc_pos hn
    obtain ⟨x, hx, he⟩ := parent_before hH h.split ⟨d, hd, rfl⟩ ⟨d, by rw [h.split]; simp [hd], rfl, hp⟩
    exact hcok.new x hx he
  have hb := h.book
  have hpar : s1.parents c.hash = c.parents := by
    unfold Proc.parents
    rw [h2, hb.graph, hg.parents c hc]
    rfl
  have ht : TInv g s1 (fun p => nc (done.drop k) p) := by
    refine ⟨h2.trans hb.graph, by rw [h3]; exact hb.cp, by rw [h4]; exact hb.len, by rw [h4]; exact hb.nodup, by rw [h4]; exact hb.fin, ?_⟩
    intro x hx1 hx2
    have hne : x ≠ c.hash := by
      rintro rfl
      have := nc_drop_le done k c.hash
      omega
    rw [h4, h1 x hne]
    exact hb.gone x hx1 hx2
  obtain ⟨t1, t2⟩ := trim_inv ht hpar hcok.parentsOnce
  have hf : (fun x => nc (done.drop k) x + if x ∈ c.parents then 1 else 0) = fun x => nc ((done ++ [c]).drop k) x := by
    funext x
    rw [List.drop_append_of_le_length hk, nc_append, nc_cons]
    simp [nc]
  rw [hf] at t1 t2
  refine ⟨t1, fun q => ?_, fun Q hQ1 hQ2 x hx => trim_recent ht hpar hQ1 hQ2 hx⟩
  rcases t2 q with h' | ⟨h', l, l1, l2, l3, l4⟩
  · exact Or.inl h'
  · refine Or.inr ⟨h', ?_⟩
    have hle : ∀ x, nc ((done ++ [c]).drop k) x + nc rest x ≤ nc H x := by
      intro x
      have := nc_drop_le (done ++ [c]) k x
      rw [h.split, show done ++ c :: rest = (done ++ [c]) ++ rest by simp, nc_append]
      omega
    have hq : childLen g q ≤ nc ((done ++ [c]).drop k) q ∧ nc ((done ++ [c]).drop k) q ≠ 0 := l4 q l3
    have h5 := hle q
    have h6 := hg.children q
    have h7 : childLen g q = ((GoMap.get g.children q).getD []).length := rfl
    refine ⟨by omega, by omega, ?_⟩
    have hsub : ∀ x ∈ l, x ∈ H.map (·.hash) := by
      intro x hx
      have h8 : childLen g x ≤ nc ((done ++ [c]).drop k) x ∧ nc ((done ++ [c]).drop k) x ≠ 0 := l4 x hx
      have h9 := hle x
      obtain ⟨d, hd, hp⟩ := nc_pos (H := H) (p := x) (by omega)
      obtain ⟨y, hy, he⟩ := parent_before hH (r := []) (by simp) ⟨d, hd, rfl⟩ ⟨d, hd, rfl, hp⟩
      exact List.mem_map.2 ⟨y, hy, he⟩
    have := (List.subperm_of_subset l1 hsub).length_le
    rw [l2, List.length_map] at this
    omega

/-- The state after a commit has been processed. -/
theorem PInv.step {H : History} {G : Str → Str → List Str} {g : Graph} (hg : GraphOf g H) {k : Nat} {done rest : History} {c : HCommit}
    {s : Proc} (hH : History.Ok [] H) (h : PInv H G g k done (c :: rest) s) (hk : k ≤ done.length) {repo' : Repo} {res : Result}
    (hok : CommitOk H G c s.repo repo' res) {s1 : Proc} (h1 : s1.repo = repo') (h2 : s1.graph = s.graph)
    (h3 : s1.childrenProcessed = s.childrenProcessed) (h4 : s1.toUnload = s.toUnload) {s2 : Proc}
    (e1 : s2.repo = (s1.trim c.hash).repo) (e2 : s2.graph = (s1.trim c.hash).graph)
    (e3 : s2.childrenProcessed = (s1.trim c.hash).childrenProcessed) (e4 : s2.toUnload = (s1.trim c.hash).toUnload)
    (e5 : s2.sent = s.sent ++ [res]) (e6 : s2.lastProcessed = c.hash) : PInv H G g k (done ++ [c]) rest s2 := by
  have hcok : c.Ok done := history_ok_at (r := rest) (h.split ▸ hH)
  have hc : c ∈ H := by rw [h.split]; simp
  obtain ⟨t1, t3, t4⟩ := h.trim hg hH hk (s1 := s1) (by rw [h1]; exact hok.same) h2 h3 h4
  have hsame := trim_same s1 c.hash
  have hdrop : (done ++ [c]).drop k = done.drop k ++ [c] := by
    rw [List.drop_append_of_le_length hk]
  constructor
  · rw [h.split]; simp
  · exact ⟨e2.trans t1.graph, by rw [e3]; exact t1.cp, by rw [e4]; exact t1.len, by rw [e4]; exact t1.nodup, by rw [e4]; exact t1.fin,
      by rw [e4, e1]; exact t1.gone⟩
  · intro x hx fs hfs
    rw [e1] at hfs
    have hget : GoMap.get repo' x.hash = some fs := by
      rcases t3 x.hash with ht | ⟨ht, _⟩
      · rw [← h1, ← ht]; exact hfs
      · rw [ht] at hfs; cases hfs
    rcases List.mem_append.1 hx with hx | hx
    · have hne : x.hash ≠ c.hash := hcok.new x hx
      rw [hok.same _ hne] at hget
      exact h.stored x hx fs hget
    · simp only [List.mem_singleton] at hx
      subst hx
      obtain ⟨fs', k1, k2, _⟩ := hok.files
      rw [k1] at hget
      cases hget
      exact k2
  · intro x hx hnc
    rw [e1]
    have hget : ∃ fs, GoMap.get repo' x.hash = some fs := by
      rcases List.mem_append.1 hx with hx | hx
      · have hne : x.hash ≠ c.hash := hcok.new x hx
        rw [hok.same _ hne]
        exact h.kept x hx (by rw [nc_cons]; omega)
      · simp only [List.mem_singleton] at hx
        subst hx
        obtain ⟨fs', k1, _⟩ := hok.files
        exact ⟨fs', k1⟩
    obtain ⟨fs, hfs⟩ := hget
    rcases t3 x.hash with ht | ⟨_, ht, _⟩
    · exact ⟨fs, by rw [ht, h1]; exact hfs⟩
    · exact absurd ht hnc
  · intro x hx hnc
    rw [e1]
    have hget : ∃ fs, GoMap.get repo' x.hash = some fs := by
      rw [hdrop] at hx
      rcases List.mem_append.1 hx with hx | hx
      · have hne : x.hash ≠ c.hash := hcok.new x (List.mem_of_mem_drop hx)
        rw [hok.same _ hne]
        exact h.heads x hx hnc
      · simp only [List.mem_singleton] at hx
        subst hx
        obtain ⟨fs', k1, _⟩ := hok.files
        exact ⟨fs', k1⟩
    obtain ⟨fs, hfs⟩ := hget
    rcases t3 x.hash with ht | ⟨_, _, ht, hlen⟩
    · exact ⟨fs, by rw [ht, h1]; exact hfs⟩
    · rcases hnc with hnc | hnc
      · exact absurd hnc ht
      · omega
  · intro d1 d2 hd hfew x hx hxd
    have hself : nc (done.drop k) c.hash = 0 := by
      apply Classical.byContradiction
      intro hn
      obtain ⟨d, hd, hp⟩ := nc_pos hn
      have hd' := List.mem_of_mem_drop hd
      obtain ⟨y, hy, he⟩ := parent_before hH h.split ⟨d, hd', rfl⟩ ⟨d, by rw [h.split]; simp [hd'], rfl, hp⟩
      exact hcok.new y hy he
    rcases List.eq_nil_or_concat d2 with rfl | ⟨d2', e, rfl⟩
    · rcases hxd with hxd | ⟨d, hxd, _⟩ <;> cases hxd
    · rw [List.concat_eq_append] at hd hfew hxd ⊢
      rw [hdrop, ← List.append_assoc] at hd
      obtain ⟨hd', he⟩ := List.append_inj' hd rfl
      cases he
      have hQ : ∀ p ∈ c.parents, ∃ d ∈ d2' ++ [c], p ∈ d.parents := fun p hp => ⟨c, by simp, hp⟩
      have key : Recent s1 (fun y => ∃ d ∈ d2' ++ [c], y ∈ d.parents) x.hash := by
        have hold : x ∈ done → (x ∈ d2' ∨ ∃ d ∈ d2', x.hash ∈ d.parents) →
            Recent s1 (fun y => ∃ d ∈ d2' ++ [c], y ∈ d.parents) x.hash := by
          intro hxd' hor
          have hup : ∀ y, (∃ d ∈ d2', y ∈ d.parents) → ∃ d ∈ d2' ++ [c], y ∈ d.parents :=
            fun y ⟨d, h5, h6⟩ => ⟨d, by simp [h5], h6⟩
          obtain ⟨⟨fs, hfs⟩, hpos⟩ := h.recent d1 d2' hd' (fun l l1 l2 => hfew l l1 (fun y hy => hup y (l2 y hy))) x hxd' hor
          refine ⟨⟨fs, by rw [h1, hok.same _ (hcok.new x hxd')]; exact hfs⟩, ?_⟩
          rw [h4]
          exact hpos.imp id (fun ⟨n, o, g1, g2⟩ => ⟨n, o, g1, fun y hy => hup y (g2 y hy)⟩)
        rcases List.mem_append.1 hx with hx' | hx'
        · by_cases hp : x.hash ∈ c.parents
          · obtain ⟨fs, hfs⟩ := h.kept x hx' (nc_of_mem (d := c) (by simp) hp)
            refine ⟨⟨fs, by rw [h1, hok.same _ (hcok.new x hx')]; exact hfs⟩, Or.inl ?_⟩
            rw [h4]
            intro hm
            have h5 : childLen g x.hash ≤ nc (done.drop k) x.hash := (h.book.fin _ hm).1
            have h6 := hg.children x.hash
            have h7 := nc_drop_le done k x.hash
            have h8 : nc H x.hash = nc done x.hash + (1 + nc rest x.hash) := by rw [h.split, nc_append, nc_cons, if_pos hp]
            unfold childLen at h5
            omega
          · refine hold hx' ?_
            rcases hxd with hxd | ⟨d, hxd, hpd⟩
            · rcases List.mem_append.1 hxd with hxd | hxd
              · exact Or.inl hxd
              · simp only [List.mem_singleton] at hxd
                exact absurd (congrArg HCommit.hash hxd) (hcok.new x hx')
            · rcases List.mem_append.1 hxd with hxd | hxd
              · exact Or.inr ⟨d, hxd, hpd⟩
              · simp only [List.mem_singleton] at hxd
                subst hxd
                exact absurd hpd hp
        · simp only [List.mem_singleton] at hx'
          subst hx'
          obtain ⟨fs', k1, _⟩ := hok.files
          refine ⟨⟨fs', by rw [h1]; exact k1⟩, Or.inl ?_⟩
          rw [h4]
          intro hm
          exact (h.book.fin _ hm).2 hself
      obtain ⟨⟨fs, hfs⟩, hpos⟩ := t4 _ hQ hfew _ key
      exact ⟨⟨fs, by rw [e1]; exact hfs⟩, by rw [e4]; exact hpos⟩
  · rw [e5, hdrop, List.length_append, List.length_append, h.sentLen]; rfl
  · intro i x r hx hr
    rw [hdrop, List.getElem?_append] at hx
    rw [e5, List.getElem?_append] at hr
    split at hx
    · rename_i hlt
      rw [if_pos (by rw [h.sentLen]; exact hlt)] at hr
      exact h.sentOk i x r hx hr
    · rename_i hlt
      rw [if_neg (by rw [h.sentLen]; exact hlt)] at hr
      rw [h.sentLen] at hr
      cases hi : i - (done.drop k).length with
      | zero =>
        rw [hi] at hx hr
        simp only [List.getElem?_cons_zero, Option.some.injEq] at hx hr
        subst hx
        subst hr
        exact hok.result hH h.split
      | succ m => rw [hi] at hx; simp at hx
  · rw [hdrop, e5, e6, if_neg (by simp)]
    simp

/-- What `Run` does at the end of the log. -/
def Proc.flush (env : Env) (s : Proc) : Go Proc := if s.mergeParts.length > 0 then s.finishMerge env else .ok s

/-- The log entries `log` take state `s` to state `s'` without failure, a pending merge included. -/
def Proc.LoopF (env : Env) (s : Proc) (log : List LogCommit) (s' : Proc) : Prop :=
  ∃ t, s.loop env log = (t, none) ∧ t.flush env = .ok s'

theorem flush_idle {env : Env} {s : Proc} (h : s.mergeParts = []) : s.flush env = .ok s := by
  unfold Proc.flush; rw [h]; rfl

theorem loop_append (env : Env) (s : Proc) (a b : List LogCommit) {t : Proc} (h : s.loop env a = (t, none)) :
    s.loop env (a ++ b) = t.loop env b := by
  induction a generalizing s with
  | nil => simp only [Proc.loop, Prod.mk.injEq, and_true] at h; rw [h]; rfl
  | cons x a ih =>
    rw [List.cons_append, Proc.loop]
    rw [Proc.loop] at h
    cases hc : s.commit env x with
    | mk s1 f =>
      rw [hc] at h
      cases f with
      | some e => simp at h
      | none => exact ih s1 h

/-- A pending merge is completed by the first entry of another commit. -/
theorem loopF_flush {env : Env} {t s1 s' : Proc} {log : List LogCommit} {h : Str} (hp : t.mergeParts ≠ [] → t.mergePartsCommit = h)
    (hf : t.flush env = .ok s1) (h1 : s1.mergeParts = []) (hne : ∀ e, log.head? = some e → e.hash ≠ h) (hl : s1.LoopF env log s') :
    t.LoopF env log s' := by
  by_cases hm : t.mergeParts = []
  · rw [flush_idle hm] at hf
    cases hf
    exact hl
  · have hlen : t.mergeParts.length > 0 := List.length_pos_iff.2 hm
    cases log with
    | nil =>
      obtain ⟨u, h2, h3⟩ := hl
      simp only [Proc.loop, Prod.mk.injEq, and_true] at h2
      subst h2
      rw [flush_idle h1] at h3
      cases h3
      exact ⟨t, rfl, hf⟩
    | cons e log =>
      obtain ⟨u, h2, h3⟩ := hl
      refine ⟨u, ?_, h3⟩
      rw [← h2]
      have : t.commit env e = s1.commit env e := by
        unfold Proc.commit
        rw [if_pos hlen, if_neg (by rw [hp hm]; exact fun h' => hne e rfl h'.symm), h1, if_neg (by simp)]
        unfold Proc.flush at hf
        rw [if_pos hlen] at hf
        rw [hf]
      rw [Proc.loop, Proc.loop, this]

/-- The same bookkeeping: the same parents, numbers of children, processed children and commits to unload; files are stored for the
same commits. -/
structure BookEq (a b : Proc) : Prop where
  parents : ∀ h, b.parents h = a.parents h
  children : ∀ p, childLen b.graph p = childLen a.graph p
  cp : ∀ p, (GoMap.get b.childrenProcessed p).getD 0 = (GoMap.get a.childrenProcessed p).getD 0
  list : b.toUnload = a.toUnload
  stored : ∀ q, (GoMap.get b.repo q).isSome = (GoMap.get a.repo q).isSome

theorem BookEq.refl (a : Proc) : BookEq a a := ⟨fun _ => rfl, fun _ => rfl, fun _ => rfl, rfl, fun _ => rfl⟩

theorem BookEq.symm {a b : Proc} (h : BookEq a b) : BookEq b a :=
  ⟨fun x => (h.parents x).symm, fun x => (h.children x).symm, fun x => (h.cp x).symm, h.list.symm, fun x => (h.stored x).symm⟩

theorem BookEq.trans {a b c : Proc} (h : BookEq a b) (h' : BookEq b c) : BookEq a c :=
  ⟨fun x => (h'.parents x).trans (h.parents x), fun x => (h'.children x).trans (h.children x), fun x => (h'.cp x).trans (h.cp x),
    h'.list.trans h.list, fun x => (h'.stored x).trans (h.stored x)⟩

theorem BookEq.trimParent {a b : Proc} (h : BookEq a b) (p : Str) : BookEq (a.trimParent p) (b.trimParent p) := by
  have hc := h.cp p
  have hl := h.children p
  have hcp : ∀ (n : Nat) (x : Str), (GoMap.get (GoMap.set b.childrenProcessed p n) x).getD 0 = (GoMap.get (GoMap.set a.childrenProcessed p n) x).getD 0 := by
    intro n x
    rw [GoMap.get_set, GoMap.get_set]
    split
    · rfl
    · exact h.cp x
  unfold childLen at hl
  unfold Proc.trimParent
  simp only [hc, hl]
  split
  · unfold unload
    rw [h.list]
    simp only
    split
    · split
      · rename_i last _
        refine ⟨h.parents, h.children, hcp _, rfl, fun q => ?_⟩
        simp only [GoMap.get_del]
        split
        · rfl
        · exact h.stored q
      · exact ⟨h.parents, h.children, hcp _, rfl, h.stored⟩
    · exact ⟨h.parents, h.children, hcp _, rfl, h.stored⟩
  · exact ⟨h.parents, h.children, hcp _, h.list, h.stored⟩

theorem BookEq.trim {a b : Proc} (h : BookEq a b) (c : Str) : BookEq (a.trim c) (b.trim c) := by
  unfold Proc.trim
  rw [h.parents]
  generalize a.parents c = ps
  induction ps generalizing a b with
  | nil => exact h
  | cons p ps ih => exact ih (h.trimParent p)

/-- The files of `repo'` stored for `c` are given by the parents' files in `repo` and the log. -/
def StoredBy (env : Env) (c : HCommit) (ec : List LogEntry) (repo repo' : Repo) : Prop :=
  (c.Regular ∧ ∃ e, ec = [e] ∧ ∀ p, repo'.getFileOptional c.hash p = .ok (regStored env c e.meaning.changes repo p)) ∨
  (¬ c.Regular ∧ ∃ D, Collected c D ∧ ∀ p, repo'.getFileOptional c.hash p = .ok (mergeStored env c D repo p))

/-- The commit `c` was processed between `s` and `s'`. -/
def Stepped (H : History) (G : Str → Str → List Str) (env : Env) (c : HCommit) (ec : List LogEntry) (s s' : Proc) : Prop :=
  ∃ repo' res, CommitOk H G c s.repo repo' res ∧ StoredBy env c ec s.repo repo' ∧ s'.sent = s.sent ++ [res] ∧
    (∀ q, GoMap.get s'.repo q = GoMap.get repo' q ∨ GoMap.get s'.repo q = none) ∧
    ∃ s0 : Proc, s0.repo = repo' ∧ s0.graph = s.graph ∧ s0.childrenProcessed = s.childrenProcessed ∧ s0.toUnload = s.toUnload ∧
      BookEq (s0.trim c.hash) s'

theorem entry_changes {c : HCommit} {frm : Option Str} {cs : List FileChange} {e : LogEntry} (h : EntryFor c frm cs e) (hok : ∀ f ∈ cs, f.Ok) :
    ChangesOf e.meaning.changes cs :=
  (C11_then_parse [(e, cs)] (by
    intro x hx
    simp only [List.mem_singleton] at hx
    subst hx
    exact ⟨h.1, h.2.2.2, hok⟩)).2 (e, cs) (by simp)

theorem setAll_get (l : List LogCommit) (hn : (l.map (·.mergeDiffFrom)).Nodup) (m : GoMap Str LogCommit) (q : Str) :
    GoMap.get (l.foldl (fun m e => GoMap.set m e.mergeDiffFrom e) m) q =
      match l.find? (fun e => decide (e.mergeDiffFrom = q)) with
      | some e => some e
      | none => GoMap.get m q := by
  induction l generalizing m with
  | nil => rfl
  | cons e l ih =>
    rw [List.map_cons, List.nodup_cons] at hn
    rw [List.foldl_cons, ih hn.2, List.find?_cons]
    by_cases h : e.mergeDiffFrom = q
    · have : l.find? (fun e => decide (e.mergeDiffFrom = q)) = none := by
        rw [List.find?_eq_none]
        intro x hx
        simp only [decide_eq_true_eq]
        intro hxq
        exact hn.1 (List.mem_map.2 ⟨x, hx, by rw [hxq, h]⟩)
      rw [this]
      simp [h]
    · simp only [h, decide_false]
      cases l.find? (fun e => decide (e.mergeDiffFrom = q)) with
      | some _ => rfl
      | none => simp only [GoMap.get_set, h, if_false]

theorem setAll_keys (l : List LogCommit) (m : GoMap Str LogCommit) (q : Str) :
    q ∈ GoMap.keys (l.foldl (fun m e => GoMap.set m e.mergeDiffFrom e) m) ↔ q ∈ GoMap.keys m ∨ ∃ e ∈ l, e.mergeDiffFrom = q := by
  induction l generalizing m with
  | nil => simp
  | cons e l ih =>
    rw [List.foldl_cons, ih, GoMap.mem_keys_set]
    constructor
    · rintro ((h | h) | ⟨x, hx, h⟩)
      · exact Or.inr ⟨e, by simp, h.symm⟩
      · exact Or.inl h
      · exact Or.inr ⟨x, by simp [hx], h⟩
    · rintro (h | ⟨x, hx, h⟩)
      · exact Or.inl (Or.inr h)
      · rcases List.mem_cons.1 hx with rfl | hx
        · exact Or.inl (Or.inl h.symm)
        · exact Or.inr ⟨x, hx, h⟩

/-- The entries of a merge give its parts. -/
theorem partsOf_entries {before : History} {c : HCommit} (hcok : c.Ok before) (hpne : c.parents ≠ []) {ms : List LogEntry} (h : MergeEntries c ms) :
    PartsOf ((ms.map LogEntry.meaning).foldl (fun m e => GoMap.set m e.mergeDiffFrom e) []) c ∧ ms ≠ [] ∧ ∀ e ∈ ms, e.hash = c.hash := by
  have hplen := hcok.count hpne
  have hok : ∀ x ∈ c.parents.zip c.diffs, ∀ f ∈ x.2, f.Ok := fun x hx => (hcok.diffs x hx).ok
  unfold MergeEntries at h
  simp only at h
  split at h
  · rename_i hnone
    obtain ⟨e, rfl, he⟩ := h
    have hempty : e.meaning.changes = [] := by simp [LogEntry.meaning, he.2.2.2]
    refine ⟨⟨?_, ?_⟩, by simp, ?_⟩
    · intro x hx
      have hx2 : x.2 = [] := by
        have := List.filter_eq_nil_iff.1 hnone x hx
        simpa using this
      have : ((GoMap.get ([e.meaning].foldl (fun m e => GoMap.set m e.mergeDiffFrom e) ([] : GoMap Str LogCommit)) x.1).getD {}).changes = [] := by
        simp only [List.foldl_cons, List.foldl_nil, GoMap.get_set]
        split
        · exact hempty
        · rfl
      rw [List.map_cons, List.map_nil, this, hx2]
      rfl
    · intro k _ _
      simp only [List.map_cons, List.map_nil, List.foldl_cons, List.foldl_nil, GoMap.get_set]
      split
      · exact hempty
      · rfl
    · intro x hx
      simp only [List.mem_singleton] at hx
      subst hx
      exact he.2.1
  · rename_i hsome
    obtain ⟨hlen, hent⟩ := h
    have hfst : ms.map (fun e => e.meaning.mergeDiffFrom) = ((c.parents.zip c.diffs).filter (fun x => !x.2.isEmpty)).map Prod.fst := by
      apply List.ext_getElem
      · simp [hlen]
      · intro i h1 h2
        simp only [List.length_map] at h1 h2
        have := (hent (((c.parents.zip c.diffs).filter (fun x => !x.2.isEmpty))[i], ms[i]) (by
          rw [List.mem_iff_getElem?]
          exact ⟨i, by rw [List.getElem?_zip_eq_some]; exact ⟨List.getElem?_eq_getElem h2, List.getElem?_eq_getElem h1⟩⟩)).2.2.1
        simp only at this
        simp only [List.getElem_map, LogEntry.meaning, this, Option.getD_some]
    have hzip : (c.parents.zip c.diffs).map Prod.fst = c.parents := by
      rw [List.map_fst_zip (by omega)]
    have hnd : (ms.map (fun e => e.meaning.mergeDiffFrom)).Nodup := by
      rw [hfst]
      refine List.Sublist.nodup ((List.filter_sublist).map _) ?_
      rw [hzip]
      exact hcok.parentsOnce
    have hnd' : ((ms.map LogEntry.meaning).map (·.mergeDiffFrom)).Nodup := by
      rw [List.map_map]; exact hnd
    have hmem : ∀ e ∈ ms, ∃ x ∈ c.parents.zip c.diffs, x.2 ≠ [] ∧ EntryFor c (some x.1) x.2 e := by
      intro e he
      obtain ⟨i, hi, rfl⟩ := List.mem_iff_getElem.1 he
      have h2 : i < ((c.parents.zip c.diffs).filter (fun x => !x.2.isEmpty)).length := by omega
      have hin : ((c.parents.zip c.diffs).filter (fun x => !x.2.isEmpty))[i] ∈ (c.parents.zip c.diffs).filter (fun x => !x.2.isEmpty) := List.getElem_mem h2
      rw [List.mem_filter] at hin
      refine ⟨_, hin.1, by simpa using hin.2, ?_⟩
      exact hent (((c.parents.zip c.diffs).filter (fun x => !x.2.isEmpty))[i], ms[i]) (by
          rw [List.mem_iff_getElem?]
          exact ⟨i, by rw [List.getElem?_zip_eq_some]; exact ⟨List.getElem?_eq_getElem h2, List.getElem?_eq_getElem hi⟩⟩)
    refine ⟨⟨?_, ?_⟩, ?_, ?_⟩
    · intro x hx
      rw [setAll_get _ hnd']
      cases hfind : (ms.map LogEntry.meaning).find? (fun e => decide (e.mergeDiffFrom = x.1)) with
      | some lc =>
        have h1 := List.mem_of_find?_eq_some hfind
        have h2 := List.find?_some hfind
        simp only [decide_eq_true_eq] at h2
        obtain ⟨e, he, rfl⟩ := List.mem_map.1 h1
        obtain ⟨y, hy, _, hye⟩ := hmem e he
        have hyx : y = x := by
          have hfr : e.meaning.mergeDiffFrom = y.1 := by simp [LogEntry.meaning, hye.2.2.1]
          have h3 : y.1 = x.1 := hfr.symm.trans h2
          exact nodup_map_inj (f := Prod.fst) (by rw [hzip]; exact hcok.parentsOnce) hy hx h3
        subst hyx
        exact entry_changes hye (hok y hy)
      | none =>
        have hx2 : x.2 = [] := by
          apply Classical.byContradiction
          intro hne
          have hxin : x.1 ∈ ms.map (fun e => e.meaning.mergeDiffFrom) := by
            rw [hfst, List.mem_map]
            exact ⟨x, by rw [List.mem_filter]; exact ⟨hx, by simpa using hne⟩, rfl⟩
          obtain ⟨e, he, hex⟩ := List.mem_map.1 hxin
          have := List.find?_eq_none.1 hfind e.meaning (List.mem_map_of_mem he)
          simp only [decide_eq_true_eq] at this
          exact this hex
        rw [hx2]
        rfl
    · intro k hk hkp
      rw [setAll_keys] at hk
      rcases hk with hk | ⟨lc, hlc, hk⟩
      · simp [GoMap.keys] at hk
      · obtain ⟨e, he, rfl⟩ := List.mem_map.1 hlc
        obtain ⟨y, hy, _, hye⟩ := hmem e he
        exfalso
        apply hkp
        have hfr : e.meaning.mergeDiffFrom = y.1 := by simp [LogEntry.meaning, hye.2.2.1]
        rw [← hk, hfr]
        exact (List.of_mem_zip hy).1
    · intro h0
      rw [h0] at hlen
      exact hsome (List.eq_nil_of_length_eq_zero hlen.symm)
    · intro e he
      obtain ⟨y, hy, _, hye⟩ := hmem e he
      exact hye.2.1

/-- The entries of a merge after the first are only collected. -/
theorem collect_parts {env : Env} (l : List LogCommit) (t : Proc) (hne : t.mergeParts ≠ []) (hh : ∀ e ∈ l, e.hash = t.mergePartsCommit) :
    t.loop env l = ({ t with mergeParts := l.foldl (fun m e => GoMap.set m e.mergeDiffFrom e) t.mergeParts }, none) := by
  induction l generalizing t with
  | nil => rfl
  | cons e l ih =>
    have hset : GoMap.set t.mergeParts e.mergeDiffFrom e ≠ [] := by
      intro h
      have := GoMap.get_set_self t.mergeParts e.mergeDiffFrom e
      rw [h] at this
      cases this
    rw [Proc.loop, Proc.commit, if_pos (List.length_pos_iff.2 hne), if_pos (hh e (by simp)).symm]
    simp only
    rw [ih { t with mergeParts := GoMap.set t.mergeParts e.mergeDiffFrom e } hset (fun x hx => hh x (by simp [hx]))]
    rfl

theorem mergeEntries_ne {c : HCommit} {ms : List LogEntry} (h : MergeEntries c ms) : ms ≠ [] ∧ ∀ e ∈ ms, e.hash = c.hash := by
  unfold MergeEntries at h
  simp only at h
  split at h
  · obtain ⟨e, rfl, he⟩ := h
    exact ⟨by simp, by intro x hx; simp only [List.mem_singleton] at hx; rw [hx]; exact he.2.1⟩
  · rename_i hsome
    obtain ⟨hlen, hent⟩ := h
    refine ⟨?_, ?_⟩
    · intro h0
      rw [h0] at hlen
      exact hsome (List.eq_nil_of_length_eq_zero hlen.symm)
    · intro e he
      obtain ⟨i, hi, rfl⟩ := List.mem_iff_getElem.1 he
      have h2 : i < ((c.parents.zip c.diffs).filter (fun x => !x.2.isEmpty)).length := by omega
      exact (hent (((c.parents.zip c.diffs).filter (fun x => !x.2.isEmpty))[i], ms[i]) (by
          rw [List.mem_iff_getElem?]
          exact ⟨i, by rw [List.getElem?_zip_eq_some]; exact ⟨List.getElem?_eq_getElem h2, List.getElem?_eq_getElem hi⟩⟩)).2.1

theorem log_head {r : History} {es : List LogEntry} (h : LogOf r es) :
    (r = [] ∧ es = []) ∨ ∃ c r' e es', r = c :: r' ∧ es = e :: es' ∧ e.hash = c.hash := by
  cases h with
  | nil => exact Or.inl ⟨rfl, rfl⟩
  | @cons c ms H es hp _ =>
    rcases hp with ⟨_, _, e, _, he, rfl⟩ | ⟨_, hms⟩
    · exact Or.inr ⟨_, _, e, es, rfl, rfl, he.2.1⟩
    · obtain ⟨h1, h2⟩ := mergeEntries_ne hms
      cases ms with
      | nil => exact absurd rfl h1
      | cons e ms => exact Or.inr ⟨_, _, e, ms ++ es, rfl, rfl, h2 e (by simp)⟩

theorem log_head_ne {r : History} {es : List LogEntry} (h : LogOf r es) {H done r2 : History} {c : HCommit} (hs : H = done ++ c :: r ++ r2)
    (hH : History.Ok [] H) : ∀ e, (es.map LogEntry.meaning).head? = some e → e.hash ≠ c.hash := by
  intro e he
  rcases log_head h with ⟨rfl, rfl⟩ | ⟨d, r', e', es', rfl, rfl, h3⟩
  · simp at he
  · simp only [List.map_cons, List.head?_cons, Option.some.injEq] at he
    subst he
    have hd : d.Ok (done ++ [c]) := history_ok_at (r := r' ++ r2) (by
      have : H = done ++ [c] ++ d :: (r' ++ r2) := by rw [hs]; simp
      exact this ▸ hH)
    show e'.hash ≠ c.hash
    rw [h3]
    exact (hd.new c (by simp)).symm

section
variable {env : Env} (hsrt : SortsHunks env.srt) (horder : ∀ n k l, (env.order n k l).Perm l)
  {H : History} {G : Str → Str → List Str} (hH : History.Ok [] H) {g : Graph} (hg : GraphOf g H)
  (hanc : ∀ c ∈ H, ∀ p, ∀ o ∈ G c.hash p, H.Reach c.hash o)
include hsrt horder hH hg hanc

/-- One commit of the log. -/
theorem commit_ok {k : Nat} {done rest : History} {c : HCommit} {s : Proc} (h0 : s.mergeParts = []) (h : PInv H G g k done (c :: rest) s)
    (hk : k ≤ done.length) (hbw : c.Answered H G env.blameOut) {ec : List LogEntry} (hp : Printed c ec) :
    ∃ t s', s.loop env (ec.map LogEntry.meaning) = (t, none) ∧ (t.mergeParts ≠ [] → t.mergePartsCommit = c.hash) ∧ t.flush env = .ok s' ∧
      s'.mergeParts = [] ∧ PInv H G g k (done ++ [c]) rest s' ∧ Stepped H G env c ec s s' := by
  have hpar : s.parents c.hash = c.parents := by
    unfold Proc.parents
    rw [h.book.graph, hg.parents c (by rw [h.split]; simp)]
    rfl
  have hcok : c.Ok done := history_ok_at (r := rest) (h.split ▸ hH)
  have hkept : ∀ (s1 : Proc), SameBut c.hash s.repo s1.repo → s1.graph = s.graph → s1.childrenProcessed = s.childrenProcessed → s1.toUnload = s.toUnload →
      ∀ q, GoMap.get (s1.trim c.hash).repo q = GoMap.get s1.repo q ∨ GoMap.get (s1.trim c.hash).repo q = none := by
    intro s1 e0 e1 e2 e3 q
    rcases (h.trim hg hH hk e0 e1 e2 e3).2.1 q with ht | ⟨ht, _⟩
    · exact Or.inl ht
    · exact Or.inr ht
  rcases hp with ⟨hreg, cs, e, hcs, he, rfl⟩ | ⟨hreg, hms⟩
  · have hcsok : ∀ f ∈ cs, f.Ok := by
      by_cases hroot : c.parents = []
      · obtain ⟨cs', g1, g2⟩ := hcok.root hroot
        rw [g1] at hcs
        cases hcs
        exact g2.ok
      · have hl := hcok.count hroot
        rw [hcs] at hl
        obtain ⟨q, hq⟩ := List.length_eq_one_iff.1 hl.symm
        exact (hcok.diffs (q, cs) (by rw [hq, hcs]; simp)).ok
    have hch := entry_changes he hcsok
    obtain ⟨repo', res, m1, m2, m3⟩ := regular_ok hsrt horder hH h.split hreg hcs hch (h.parents hH) hbw s.sent.length
    have hhash : e.meaning.hash = c.hash := he.2.1
    have hnew : s.newCommit env e.meaning = .ok { ({ s with repo := repo', lastProcessed := c.hash } : Proc).trim c.hash with
        sent := (({ s with repo := repo', lastProcessed := c.hash } : Proc).trim c.hash).sent ++ [res] } := by
      unfold Proc.newCommit
      rw [hhash, hpar, if_neg (by unfold HCommit.Regular at hreg; omega), m1]
      rfl
    have hparts : (({ s with repo := repo', lastProcessed := c.hash } : Proc).trim c.hash).mergeParts = [] := by
      rw [(trim_same _ _).parts]; exact h0
    refine ⟨{ ({ s with repo := repo', lastProcessed := c.hash } : Proc).trim c.hash with
        sent := (({ s with repo := repo', lastProcessed := c.hash } : Proc).trim c.hash).sent ++ [res] }, _, ?_, ?_, flush_idle ?_, ?_, ?_, ?_⟩
    · simp only [List.map_cons, List.map_nil, Proc.loop, Proc.commit, h0, List.length_nil, gt_iff_lt, Nat.lt_irrefl, if_false, hnew]
    · intro hne; exact absurd hparts hne
    · exact hparts
    · exact hparts
    · refine h.step hg hH hk (s1 := { s with repo := repo', lastProcessed := c.hash }) m2 rfl rfl rfl rfl rfl rfl rfl rfl ?_ ?_
      · simp only [(trim_same _ _).sent]
      · simp only [(trim_same _ _).last]
    · refine ⟨repo', res, m2, Or.inl ⟨hreg, e, rfl, m3⟩, ?_, ?_⟩
      · simp only [(trim_same _ _).sent]
      · exact ⟨fun q => hkept { s with repo := repo', lastProcessed := c.hash } m2.same rfl rfl rfl q,
          { s with repo := repo', lastProcessed := c.hash }, rfl, rfl, rfl, rfl, fun _ => rfl, fun _ => rfl, fun _ => rfl, rfl, fun _ => rfl⟩
  · have hpne : c.parents ≠ [] := by intro h; apply hreg; unfold HCommit.Regular; rw [h]; simp
    obtain ⟨hparts, hne, hhash⟩ := partsOf_entries hcok hpne hms
    cases ec with
    | nil => exact absurd rfl hne
    | cons e ms =>
      have hloop : s.loop env ((e :: ms).map LogEntry.meaning) = ({ s with
          mergePartsCommit := c.hash
          mergeParts := ((e :: ms).map LogEntry.meaning).foldl (fun m e => GoMap.set m e.mergeDiffFrom e) [] }, none) := by
        have h1 : s.newCommit env e.meaning = .ok { s with mergePartsCommit := c.hash, mergeParts := [(e.meaning.mergeDiffFrom, e.meaning)] } := by
          unfold Proc.newCommit
          have hhe : e.meaning.hash = c.hash := hhash e (by simp)
          rw [hhe, hpar, if_pos (by unfold HCommit.Regular at hreg; omega)]
        have h2 : s.commit env e.meaning = ({ s with mergePartsCommit := c.hash, mergeParts := [(e.meaning.mergeDiffFrom, e.meaning)] }, none) := by
          simp only [Proc.commit, h0, List.length_nil, gt_iff_lt, Nat.lt_irrefl, if_false, h1]
        rw [List.map_cons, Proc.loop, h2]
        simp only
        rw [collect_parts]
        · rfl
        · simp
        · intro x hx
          obtain ⟨y, hy, rfl⟩ := List.mem_map.1 hx
          exact hhash y (by simp [hy])
      have hpn : ((e :: ms).map LogEntry.meaning).foldl (fun m e => GoMap.set m e.mergeDiffFrom e) [] ≠ ([] : GoMap Str LogCommit) := by
        intro h
        have := (setAll_keys ((e :: ms).map LogEntry.meaning) [] e.meaning.mergeDiffFrom).2 (Or.inr ⟨e.meaning, by simp, rfl⟩)
        rw [h] at this
        simp [GoMap.keys] at this
      generalize ((e :: ms).map LogEntry.meaning).foldl (fun m e => GoMap.set m e.mergeDiffFrom e) [] = parts at hparts hloop hpn
      obtain ⟨repo', res, m1, m2, D, m3, m4⟩ := merge_ok hsrt horder hH h.split hreg hparts (h.parents hH) hanc s.sent.length
      refine ⟨_, { (({ s with mergePartsCommit := c.hash, mergeParts := parts, repo := repo', lastProcessed := c.hash } : Proc).trim c.hash) with
        mergeParts := []
        sent := (({ s with mergePartsCommit := c.hash, mergeParts := parts, repo := repo', lastProcessed := c.hash } : Proc).trim c.hash).sent ++ [res] },
        hloop, fun _ => rfl, ?_, rfl, ?_, ?_⟩
      · unfold Proc.flush Proc.finishMerge
        have : ({ s with mergePartsCommit := c.hash, mergeParts := parts } : Proc).parents c.hash = c.parents := hpar
        simp only [gt_iff_lt, List.length_pos_iff.2 hpn, if_true, this, m1]
      · refine h.step hg hH hk (s1 := { s with mergePartsCommit := c.hash, mergeParts := parts, repo := repo', lastProcessed := c.hash }) m2 rfl rfl rfl rfl rfl rfl rfl rfl ?_ ?_
        · simp only [(trim_same _ _).sent]
        · simp only [(trim_same _ _).last]
      · refine ⟨repo', res, m2, Or.inr ⟨hreg, D, m3, m4⟩, ?_, ?_⟩
        · simp only [(trim_same _ _).sent]
        · exact ⟨fun q => hkept { s with mergePartsCommit := c.hash, mergeParts := parts, repo := repo', lastProcessed := c.hash } m2.same rfl rfl rfl q,
            { s with mergePartsCommit := c.hash, mergeParts := parts, repo := repo', lastProcessed := c.hash }, rfl, rfl, rfl, rfl,
            fun _ => rfl, fun _ => rfl, fun _ => rfl, rfl, fun _ => rfl⟩


/-- All entries of a part of the log. -/
theorem loop_ok {r1 : History} {es : List LogEntry} (hlog : LogOf r1 es) (hb : ∀ c ∈ r1, c.Answered H G env.blameOut) : ∀ {k : Nat} {done r2 : History} {s : Proc}, s.mergeParts = [] →
    PInv H G g k done (r1 ++ r2) s → k ≤ done.length →
    ∃ s', s.LoopF env (es.map LogEntry.meaning) s' ∧ s'.mergeParts = [] ∧ PInv H G g k (done ++ r1) r2 s' := by
  have hcons : ∀ {c : HCommit} {ec : List LogEntry} {r1 : History} {es : List LogEntry}, Printed c ec → LogOf r1 es → (∀ x ∈ c :: r1, x.Answered H G env.blameOut) →
      (∀ {k : Nat} {done r2 : History} {s : Proc}, s.mergeParts = [] →
        PInv H G g k done (r1 ++ r2) s → k ≤ done.length →
        ∃ s', s.LoopF env (es.map LogEntry.meaning) s' ∧ s'.mergeParts = [] ∧ PInv H G g k (done ++ r1) r2 s') →
      ∀ {k : Nat} {done r2 : History} {s : Proc}, s.mergeParts = [] →
        PInv H G g k done (c :: r1 ++ r2) s → k ≤ done.length →
        ∃ s', s.LoopF env ((ec ++ es).map LogEntry.meaning) s' ∧ s'.mergeParts = [] ∧ PInv H G g k (done ++ c :: r1) r2 s' := by
    intro c ec r1 es hp hlog hb ih k done r2 s h0 h hk
    obtain ⟨t, s1, l1, l2, l3, l4, l5, _⟩ := commit_ok hsrt horder hH hg hanc h0 h hk (hb c (by simp)) hp
    obtain ⟨s2, m1, m2, m3⟩ := ih l4 l5 (by simp; omega)
    have hl : t.LoopF env (es.map LogEntry.meaning) s2 := loopF_flush l2 l3 l4 (log_head_ne hlog (done := done) (r2 := r2) (by rw [h.split]; simp) hH) m1
    refine ⟨s2, ?_, m2, by simpa using m3⟩
    obtain ⟨u, h1, h2⟩ := hl
    refine ⟨u, ?_, h2⟩
    rw [List.map_append, loop_append env s _ _ l1, h1]
  induction hlog with
  | nil =>
    intro k done r2 s h0 h hk
    exact ⟨s, ⟨s, rfl, flush_idle h0⟩, h0, by simpa using h⟩
  | cons hp hlog ih =>
    intro k done r2 s
    exact hcons hp hlog hb (ih (fun c hc => hb c (List.mem_cons_of_mem _ hc)))

end

end Ripsrc
