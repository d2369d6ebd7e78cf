import Verif.Lib.Merge
/-!
# Merge commits keep the stored files right
-/
namespace Ripsrc
open Spec

/-- The collected parts of a merge are its log entries. -/
structure PartsOf (parts : GoMap Str LogCommit) (c : HCommit) : Prop where
  parent : ∀ x ∈ c.parents.zip c.diffs, ChangesOf ((GoMap.get parts x.1).getD {}).changes x.2
  other : ∀ k ∈ GoMap.keys parts, k ∉ c.parents → ((GoMap.get parts k).getD {}).changes = []

theorem zipIdx_keys (l : List Str) (i : Nat) : (l.zipIdx i).map Prod.fst = l := by
  induction l generalizing i with
  | nil => rfl
  | cons a l ih => simp [List.zipIdx_cons, ih]

theorem hashToParOrd_get {ps : List Str} (hn : ps.Nodup) {i : Nat} {q : Str} (h : ps[i]? = some q) :
    GoMap.get (hashToParOrd ps) q = some i := by
  have hm : (q, i) ∈ ps.zipIdx := by
    rw [List.mem_iff_getElem?]
    exact ⟨i, by simp [h]⟩
  show GoMap.get (putAll [] ps.zipIdx) q = some i
  obtain ⟨v, h1, h2⟩ := putAll_mem ([] : GoMap Str Nat) ps.zipIdx q (List.mem_map.2 ⟨_, hm, rfl⟩)
  rw [h2]
  have hn' : GoMap.WF (ps.zipIdx : GoMap Str Nat) := by
    show (ps.zipIdx.map Prod.fst).Nodup
    rw [zipIdx_keys]; exact hn
  have e1 := GoMap.get_of_mem hn' h1
  have e2 := GoMap.get_of_mem hn' hm
  rw [e1] at e2
  exact e2

theorem nodup_index {α : Type} {l : List α} (hn : l.Nodup) {i j : Nat} (hi : i < l.length) (hj : j < l.length) (h : l[i] = l[j]) : i = j := by
  rcases Nat.lt_trichotomy i j with hlt | heq | hgt
  · exact absurd h (List.pairwise_iff_getElem.1 hn i j hi hj hlt)
  · exact heq
  · exact absurd h.symm (List.pairwise_iff_getElem.1 hn j i hj hi hgt)

/-- The collected diffs: sound, and complete for the changes in `done`. -/
structure DInv (c : HCommit) (D : DiffsByKey) (done : Nat → FileChange → Prop) : Prop where
  len : ∀ k ds, GoMap.get D k = some ds → ds.length = c.parents.length
  sound : ∀ k ds (i : Nat) d, GoMap.get D k = some ds → ds[i]? = some (some d) →
    ∃ cs f, c.diffs[i]? = some cs ∧ f ∈ cs ∧ mergeKey f.norm.meaning = k ∧ d = f.norm.meaning
  nonempty : ∀ k ds, GoMap.get D k = some ds → ∃ (i : Nat) (d : Diff), ds[i]? = some (some d)
  complete : ∀ i f, done i f → ∃ ds d, GoMap.get D (mergeKey f.norm.meaning) = some ds ∧ ds[i]? = some (some d)

theorem addDiff_ok {c : HCommit} (hn : c.parents.Nodup) {i : Nat} {q : Str} (hi : c.parents[i]? = some q) {cs : List FileChange}
    (hcs : c.diffs[i]? = some cs) {f : FileChange} (hf : f ∈ cs) {ch : Str} (hch : parseDiff ch = .ok f.norm.meaning)
    {D : DiffsByKey} {done : Nat → FileChange → Prop} (hD : DInv c D done) :
    ∃ D', addDiff c.parents q D ch = .ok D' ∧ DInv c D' (fun j g => done j g ∨ (j = i ∧ g = f)) := by
  have hilt : i < c.parents.length := (List.getElem?_eq_some_iff.1 hi).1
  have hplen : ((GoMap.get D (mergeKey f.norm.meaning)).getD (List.replicate c.parents.length none)).length = c.parents.length := by
    cases hg : GoMap.get D (mergeKey f.norm.meaning) with
    | none => simp
    | some ds => exact hD.len _ _ hg
  refine ⟨GoMap.set D (mergeKey f.norm.meaning)
    (((GoMap.get D (mergeKey f.norm.meaning)).getD (List.replicate c.parents.length none)).set i (some f.norm.meaning)), ?_, ?_⟩
  · unfold addDiff
    simp only [hch, bind, Except.bind, hashToParOrd_get hn hi, Option.getD_some]
    rw [if_pos (by rw [hplen]; exact hilt)]
  · constructor
    · intro k ds hk
      rw [GoMap.get_set] at hk
      split at hk
      · cases hk; rw [List.length_set]; exact hplen
      · exact hD.len k ds hk
    · intro k ds j d hk hj
      rw [GoMap.get_set] at hk
      split at hk
      · rename_i hkk
        cases hk
        rw [List.getElem?_set] at hj
        split at hj
        · rename_i hij
          subst hij
          rw [if_pos (by rw [hplen]; exact hilt)] at hj
          cases hj
          exact ⟨cs, f, hcs, hf, hkk, rfl⟩
        · cases hg : GoMap.get D (mergeKey f.norm.meaning) with
          | none =>
            rw [hg] at hj
            simp only [Option.getD_none, List.getElem?_replicate] at hj
            split at hj <;> cases hj
          | some ds' =>
            rw [hg] at hj
            rw [← hkk]
            exact hD.sound _ ds' j d hg hj
      · exact hD.sound k ds j d hk hj
    · intro k ds hk
      rw [GoMap.get_set] at hk
      split at hk
      · cases hk
        refine ⟨i, f.norm.meaning, ?_⟩
        rw [List.getElem?_set_self (by rw [hplen]; exact hilt)]
      · exact hD.nonempty k ds hk
    · intro j g hg
      rcases hg with hg | ⟨rfl, rfl⟩
      · obtain ⟨ds, d, h1, h2⟩ := hD.complete j g hg
        rw [GoMap.get_set]
        split
        · rename_i hk
          rw [hk, h1, Option.getD_some]
          by_cases hij : i = j
          · subst hij
            refine ⟨_, f.norm.meaning, rfl, ?_⟩
            rw [List.getElem?_set_self (List.getElem?_eq_some_iff.1 h2).1]
          · exact ⟨_, d, rfl, by rw [List.getElem?_set_ne hij]; exact h2⟩
        · exact ⟨ds, d, h1, h2⟩
      · rw [GoMap.get_set_self]
        exact ⟨_, _, rfl, List.getElem?_set_self (by rw [hplen]; exact hilt)⟩

theorem DInv.mono {c : HCommit} {D : DiffsByKey} {P Q : Nat → FileChange → Prop} (h : DInv c D P) (hpq : ∀ i f, Q i f → P i f) :
    DInv c D Q := ⟨h.len, h.sound, h.nonempty, fun i f hf => h.complete i f (hpq i f hf)⟩

theorem addChanges_ok {c : HCommit} (hn : c.parents.Nodup) {i : Nat} {q : Str} (hi : c.parents[i]? = some q) {cs : List FileChange}
    (hcs : c.diffs[i]? = some cs) (l : List (Str × FileChange)) (hl : ∀ x ∈ l, x.2 ∈ cs ∧ parseDiff x.1 = .ok x.2.norm.meaning)
    {D : DiffsByKey} {done : Nat → FileChange → Prop} (hD : DInv c D done) :
    ∃ D', (l.map Prod.fst).foldlM (addDiff c.parents q) D = .ok D' ∧ DInv c D' (fun j g => done j g ∨ (j = i ∧ g ∈ l.map Prod.snd)) := by
  induction l generalizing D done with
  | nil => exact ⟨D, rfl, hD.mono (by rintro j g (h | ⟨_, h⟩); exact h; cases h)⟩
  | cons x l ih =>
    obtain ⟨hx1, hx2⟩ := hl x (by simp)
    obtain ⟨D1, h1, h2⟩ := addDiff_ok hn hi hcs hx1 hx2 hD
    obtain ⟨D2, g1, g2⟩ := ih (fun y hy => hl y (by simp [hy])) h2
    refine ⟨D2, ?_, g2.mono ?_⟩
    · simp only [List.map_cons, List.foldlM_cons, h1, bind, Except.bind]
      exact g1
    · rintro j g (h | ⟨h, h'⟩)
      · exact Or.inl (Or.inl h)
      · rw [List.map_cons] at h'
        rcases List.mem_cons.1 h' with h' | h'
        · exact Or.inl (Or.inr ⟨h, h'⟩)
        · exact Or.inr ⟨h, h'⟩

theorem addParts_ok {c : HCommit} (hn : c.parents.Nodup) (hlen : c.diffs.length = c.parents.length) {parts : GoMap Str LogCommit}
    (hparts : PartsOf parts c) (ks : List Str) (hks : ∀ k ∈ ks, k ∈ GoMap.keys parts)
    {D : DiffsByKey} {done : Nat → FileChange → Prop} (hD : DInv c D done) :
    ∃ D', ks.foldlM (addPart c.parents parts) D = .ok D' ∧
      DInv c D' (fun j g => done j g ∨ ∃ q cs, q ∈ ks ∧ c.parents[j]? = some q ∧ c.diffs[j]? = some cs ∧ g ∈ cs) := by
  induction ks generalizing D done with
  | nil => exact ⟨D, rfl, hD.mono (by rintro j g (h | ⟨_, _, h, _⟩); exact h; cases h)⟩
  | cons k ks ih =>
    have step : ∃ D1, addPart c.parents parts D k = .ok D1 ∧
        DInv c D1 (fun j g => done j g ∨ ∃ cs, c.parents[j]? = some k ∧ c.diffs[j]? = some cs ∧ g ∈ cs) := by
      unfold addPart
      by_cases hk : k ∈ c.parents
      · obtain ⟨i, hi, he⟩ := List.getElem_of_mem hk
        have hi1 : c.parents[i]? = some k := by rw [List.getElem?_eq_getElem hi, he]
        have hi2 : c.diffs[i]? = some (c.diffs[i]'(by omega)) := List.getElem?_eq_getElem (by omega)
        have hz : (k, c.diffs[i]'(by omega)) ∈ c.parents.zip c.diffs := by
          rw [List.mem_iff_getElem?]
          exact ⟨i, by rw [List.getElem?_zip_eq_some]; exact ⟨hi1, hi2⟩⟩
        obtain ⟨l, l1, l2, l3⟩ := changesOf_pairs (hparts.parent _ hz)
        rw [← l1]
        obtain ⟨D1, h1, h2⟩ := addChanges_ok hn hi1 hi2 l (fun x hx => ⟨by simp only at l2; rw [← l2]; exact List.mem_map_of_mem hx, l3 x hx⟩) hD
        refine ⟨D1, h1, h2.mono ?_⟩
        rintro j g (h | ⟨cs, g1, g2, g3⟩)
        · exact Or.inl h
        · right
          have hj : j < c.parents.length := (List.getElem?_eq_some_iff.1 g1).1
          have hij : j = i := by
            have := (List.getElem?_eq_some_iff.1 g1).2
            exact nodup_index hn hj hi (this.trans he.symm)
          subst hij
          rw [hi2] at g2
          cases g2
          exact ⟨rfl, by simp only at l2; rw [l2]; exact g3⟩
      · rw [hparts.other k (hks k (by simp)) hk]
        refine ⟨D, rfl, hD.mono ?_⟩
        rintro j g (h | ⟨cs, g1, _⟩)
        · exact h
        · exact absurd (List.mem_of_getElem? g1) hk
    obtain ⟨D1, h1, h2⟩ := step
    obtain ⟨D2, g1, g2⟩ := ih (fun y hy => hks y (by simp [hy])) h2
    refine ⟨D2, ?_, g2.mono ?_⟩
    · simp only [List.foldlM_cons, h1, bind, Except.bind]
      exact g1
    · rintro j g (h | ⟨q, cs, k1, k2, k3, k4⟩)
      · exact Or.inl (Or.inl h)
      · rcases List.mem_cons.1 k1 with rfl | k1
        · exact Or.inl (Or.inr ⟨cs, k2, k3, k4⟩)
        · exact Or.inr ⟨q, cs, k1, k2, k3, k4⟩

/-! ## The second loop -/

/-- The files of the parents, from the stored files `pf`. -/
theorem candidates_ok (repo : Repo) (f : Str) (pf : Str → Files) (ps : List Str) (h : ∀ q ∈ ps, GoMap.get repo q = some (pf q)) :
    candidates repo f ps = .ok (ps.filterMap (fun q => GoMap.get (pf q) f)) := by
  induction ps with
  | nil => rfl
  | cons q ps ih =>
    have h1 : repo.getFileOptional q f = .ok (GoMap.get (pf q) f) := by unfold Repo.getFileOptional; rw [h q (by simp)]
    simp only [candidates, h1, ih (fun x hx => h x (by simp [hx])), bind, Except.bind, List.filterMap_cons]
    cases GoMap.get (pf q) f <;> rfl

theorem allParentFiles_ok (repo : Repo) (pf : Str → Files) (ps : List Str) (h : ∀ q ∈ ps, GoMap.get repo q = some (pf q)) :
    allParentFiles repo ps = .ok (ps.flatMap (fun q => GoMap.keys (pf q))) := by
  induction ps with
  | nil => rfl
  | cons q ps ih =>
    have h1 : repo.getCommitMust q = .ok (pf q) := by unfold Repo.getCommitMust; rw [h q (by simp)]
    simp only [allParentFiles, h1, ih (fun x hx => h x (by simp [hx])), bind, Except.bind, List.flatMap_cons]

/-- The stored blame for an unchanged file: of the last parent that has it. -/
def lastCandidate (pf : Str → Files) (ps : List Str) (f : Str) : Option Blame :=
  (ps.filterMap (fun q => GoMap.get (pf q) f)).getLast?

theorem unchanged_loop (hash : Str) (ps : List Str) (hself : hash ∉ ps) (pf : Str → Files) (l : List Str)
    (hl : ∀ x ∈ l, ∃ q ∈ ps, x ∈ GoMap.keys (pf q)) (repo : Repo) (fs : Files) (h : GoMap.get repo hash = some fs)
    (hps : ∀ q ∈ ps, GoMap.get repo q = some (pf q)) :
    ∃ r fs', l.foldlM (mergeUnchanged hash ps) repo = .ok r ∧ SameBut hash repo r ∧ GoMap.get r hash = some fs' ∧
      ∀ p, GoMap.get fs' p = match GoMap.get fs p with
        | some b => some b
        | none => if p ∈ l then lastCandidate pf ps p else none := by
  induction l generalizing repo fs with
  | nil =>
    refine ⟨repo, fs, rfl, fun _ _ => rfl, h, fun p => ?_⟩
    cases GoMap.get fs p <;> simp
  | cons x l ih =>
    have hopt : repo.getFileOptional hash x = .ok (GoMap.get fs x) := by unfold Repo.getFileOptional; rw [h]
    cases hx : GoMap.get fs x with
    | some b =>
      obtain ⟨r, fs', h1, h2, h3, h4⟩ := ih (fun y hy => hl y (by simp [hy])) repo fs h hps
      refine ⟨r, fs', ?_, h2, h3, fun p => ?_⟩
      · simp only [List.foldlM_cons, mergeUnchanged, hopt, hx, bind, Except.bind]
        exact h1
      · rw [h4 p]
        cases hp : GoMap.get fs p with
        | some b' => rfl
        | none =>
          simp only
          have hne : p ≠ x := by rintro rfl; rw [hx] at hp; cases hp
          simp [hne]
    | none =>
      obtain ⟨q, hq, hxq⟩ := hl x (by simp)
      obtain ⟨b0, hb0⟩ := Option.isSome_iff_exists.1 ((GoMap.get_isSome_iff (pf q) x).2 hxq)
      have hne : ps.filterMap (fun q => GoMap.get (pf q) x) ≠ [] := by
        intro he
        have : b0 ∈ ps.filterMap (fun q => GoMap.get (pf q) x) := List.mem_filterMap.2 ⟨q, hq, hb0⟩
        rw [he] at this
        cases this
      have hlast : (ps.filterMap (fun q => GoMap.get (pf q) x)).getLast? = some (List.getLast _ hne) := List.getLast?_eq_some_getLast hne
      obtain ⟨r, fs', h1, h2, h3, h4⟩ := ih (fun y hy => hl y (by simp [hy]))
        (GoMap.set repo hash (GoMap.set fs x (List.getLast _ hne))) (GoMap.set fs x (List.getLast _ hne)) (GoMap.get_set_self _ _ _)
        (fun q hq => by rw [GoMap.get_set_ne _ _ (by rintro rfl; exact hself hq)]; exact hps q hq)
      refine ⟨r, fs', ?_, (sameBut_set _ _ _).trans h2, h3, fun p => ?_⟩
      · simp only [List.foldlM_cons, mergeUnchanged, hopt, hx, candidates_ok repo x pf ps hps, hlast, put_ok h, bind, Except.bind]
        exact h1
      · rw [h4 p, GoMap.get_set]
        by_cases hxp : x = p
        · subst hxp
          simp only [if_true, hx, List.mem_cons, true_or, lastCandidate, hlast]
        · rw [if_neg hxp]
          cases GoMap.get fs p with
          | some b' => rfl
          | none => simp [Ne.symm hxp]

/-! ## The whole commit -/

/-- All changes are collected. -/
def Collected (c : HCommit) (D : DiffsByKey) : Prop := DInv c D (fun j g => ∃ cs, c.diffs[j]? = some cs ∧ g ∈ cs)

/-- The files stored for a merge, from those of the parents and the collected diffs. -/
def mergeStored (env : Env) (c : HCommit) (D : DiffsByKey) (repo : Repo) (p : Str) : Option Blame :=
  match (if (GoMap.get D p).isSome then (match mergeAct env c.hash c.parents D repo p with
      | .ok a => a.kept.map Prod.snd
      | .error _ => none) else none) with
  | some b => some b
  | none => lastCandidate (fun q => (GoMap.get repo q).getD []) c.parents p

/-- `p` is not the key of a deleted file. -/
def Spec.HCommit.Plain (c : HCommit) (p : Str) : Prop := ∀ q, c.Deletes q → p ≠ deletedPrefix ++ q

theorem merge_ok {env : Env} (hsrt : SortsHunks env.srt) (horder : ∀ n k l, (env.order n k l).Perm l)
    {H : History} {G : Str → Str → List Str} (hH : History.Ok [] H)
    {a r : History} {c : HCommit} (hsplit : H = a ++ c :: r) (hreg : ¬ c.Regular)
    {parts : GoMap Str LogCommit} (hparts : PartsOf parts c) {repo : Repo}
    (hrepo : ∀ q ∈ c.parents, ∃ fs, GoMap.get repo q = some fs ∧ RightFiles H G q fs)
    (hG : ∀ c ∈ H, ∀ p, ∀ o ∈ G c.hash p, H.Reach c.hash o) (n : Nat) :
    ∃ repo' res, processMergeCommit env n repo c.hash c.parents parts = .ok (repo', res) ∧ CommitOk H G c repo repo' res ∧
      ∃ D, Collected c D ∧ ∀ p, repo'.getFileOptional c.hash p = .ok (mergeStored env c D repo p) := by
  have hc : c ∈ H := by rw [hsplit]; simp
  have hcok : c.Ok a := history_ok_at (r := r) (hsplit ▸ hH)
  have hself : c.hash ∉ c.parents := by
    intro h
    obtain ⟨x, hx, he⟩ := hcok.parentsKnown _ h
    exact hcok.new x hx he
  have hpne : c.parents ≠ [] := by intro h; apply hreg; unfold HCommit.Regular; rw [h]; simp
  have hplen : c.diffs.length = c.parents.length := hcok.count hpne
  -- descriptions
  have hdesc : ∀ (i : Nat) q cs, c.parents[i]? = some q → c.diffs[i]? = some cs → Describes (H.treeOf q) c.tree cs := by
    intro i q cs h1 h2
    have := hcok.diffs (q, cs) (by rw [List.mem_iff_getElem?]; exact ⟨i, by rw [List.getElem?_zip_eq_some]; exact ⟨h1, h2⟩⟩)
    simp only at this
    rw [treeOf_prefix hH hsplit (hcok.parentsKnown q (List.mem_of_getElem? h1))] at this
    exact this
  have hpar : ∀ (i : Nat) cs, c.diffs[i]? = some cs → ∃ q, c.parents[i]? = some q := by
    intro i cs h
    have := (List.getElem?_eq_some_iff.1 h).1
    exact ⟨_, List.getElem?_eq_getElem (by omega)⟩
  -- keys
  have hkey : ∀ (f : FileChange), mergeKey f.norm.meaning = if f.kind.next ≠ [] then f.kind.next else deletedPrefix ++ f.kind.prev := by
    intro f; rfl
  have hplain : ∀ (i : Nat) cs f, c.diffs[i]? = some cs → f ∈ cs → f.kind.next ≠ [] → c.Plain f.kind.next := by
    intro i cs f h1 h2 h3
    obtain ⟨q, hq⟩ := hpar i cs h1
    exact (hcok.paths _ ((hdesc i q cs hq h1).next f h2 h3)).2 hreg
  obtain ⟨D, hD1, hD2⟩ := addParts_ok hcok.parentsOnce hplen hparts (env.order n 0 (GoMap.keys parts))
    (fun k hk => (horder _ _ _).mem_iff.1 hk) (D := []) (done := fun _ _ => False)
    ⟨fun k ds h => (by cases h), fun k ds i d h => (by cases h), fun k ds h => (by cases h), fun i f h => h.elim⟩
  have hD3 : DInv c D (fun j g => ∃ cs, c.diffs[j]? = some cs ∧ g ∈ cs) := by
    refine hD2.mono ?_
    rintro j g ⟨cs, h1, h2⟩
    right
    obtain ⟨q, hq⟩ := hpar j cs h1
    refine ⟨q, cs, (horder _ _ _).mem_iff.2 ?_, hq, h1, h2⟩
    have hch := hparts.parent (q, cs) (by rw [List.mem_iff_getElem?]; exact ⟨j, by rw [List.getElem?_zip_eq_some]; exact ⟨hq, h1⟩⟩)
    rw [← GoMap.get_isSome_iff]
    cases hg : GoMap.get parts q with
    | some v => rfl
    | none =>
      rw [hg] at hch
      unfold ChangesOf at hch
      have := congrArg List.length hch
      simp only [Option.getD_none, List.map_nil, List.length_nil, List.length_map] at this
      rw [List.eq_nil_of_length_eq_zero this.symm] at h2
      cases h2
  -- keys of plain paths
  have hDplain : ∀ p ds, p ≠ [] → c.Plain p → GoMap.get D p = some ds →
      ds = (c.changesAt p).map (fun x => (seen x).2) ∧ (∃ x ∈ c.changesAt p, x.2 ≠ none) ∧ ∃ v, c.tree p = some v := by
    intro p ds hp hpp hds
    have hlen := hD3.len p ds hds
    have hnext : ∀ (i : Nat) cs (f : FileChange), c.diffs[i]? = some cs → f ∈ cs → mergeKey f.norm.meaning = p → f.kind.next = p := by
      intro i cs f hi hfcs hf
      rw [hkey] at hf
      split at hf
      · exact hf
      · rename_i hn
        exact absurd hf.symm (hpp _ ⟨cs, List.mem_of_getElem? hi, f, hfcs, Classical.not_not.1 hn, rfl⟩)
    have hchlen : (c.changesAt p).length = c.parents.length := by
      unfold HCommit.changesAt
      rw [List.length_map, List.length_zip, hplen, Nat.min_self]
    have hcat : ∀ (i : Nat) q cs, c.parents[i]? = some q → c.diffs[i]? = some cs → (c.changesAt p)[i]? = some (q, changeOf cs p) := by
      intro i q cs h1 h2
      unfold HCommit.changesAt
      rw [List.getElem?_map, List.getElem?_zip_eq_some (z := (q, cs)) |>.2 ⟨h1, h2⟩]
      rfl
    have hds' : ds = (c.changesAt p).map (fun x => (seen x).2) := by
      apply List.ext_getElem?
      intro i
      by_cases hi : i < c.parents.length
      · have hq : c.parents[i]? = some c.parents[i] := List.getElem?_eq_getElem hi
        have hcs : c.diffs[i]? = some (c.diffs[i]'(by omega)) := List.getElem?_eq_getElem (by omega)
        have hd := hdesc i _ _ hq hcs
        rw [List.getElem?_map, hcat i _ _ hq hcs]
        simp only [Option.map_some, seen]
        have hsome : ds[i]? = some (ds[i]'(by omega)) := List.getElem?_eq_getElem (by omega)
        rw [hsome]
        congr 1
        cases hv : ds[i]'(by omega) with
        | some d =>
          rw [hv] at hsome
          obtain ⟨cs, f, k1, k2, k3, k4⟩ := hD3.sound p ds i d hds hsome
          rw [hcs] at k1; cases k1
          have hfn := hnext i _ f hcs k2 k3
          have hco := changeOf_of_mem hd.once k2 (by rw [hfn]; exact hp)
          rw [hfn] at hco
          rw [hco, k4]
          rfl
        | none =>
          cases hco : changeOf (c.diffs[i]'(by omega)) p with
          | none => rfl
          | some f =>
            obtain ⟨h1, h2⟩ := changeOf_some hco
            obtain ⟨ds', d, k1, k2⟩ := hD3.complete i f ⟨_, hcs, h1⟩
            rw [hkey, if_pos (by rw [h2]; exact hp), h2, hds] at k1
            cases k1
            rw [hsome, hv] at k2
            cases k2
      · rw [List.getElem?_eq_none (by omega), List.getElem?_eq_none (by rw [List.length_map]; omega)]
    refine ⟨hds', ?_, ?_⟩
    · obtain ⟨i, d, hi⟩ := hD3.nonempty p ds hds
      rw [hds', List.getElem?_map] at hi
      obtain ⟨x, hx, hxe⟩ := Option.map_eq_some_iff.1 hi
      refine ⟨x, List.mem_of_getElem? hx, ?_⟩
      intro hn
      simp [seen, hn] at hxe
    · obtain ⟨i, d, hi⟩ := hD3.nonempty p ds hds
      obtain ⟨cs, f, k1, k2, k3, k4⟩ := hD3.sound p ds i d hds hi
      obtain ⟨q, hq⟩ := hpar i cs k1
      have hfn := hnext i cs f k1 k2 k3
      have := (hdesc i q cs hq k1).next f k2 (by rw [hfn]; exact hp)
      rw [hfn] at this
      exact Option.isSome_iff_exists.1 this
  have hDexists : ∀ p, p ≠ [] → (∃ x ∈ c.changesAt p, x.2 ≠ none) → p ∈ GoMap.keys D := by
    intro p hp hx
    obtain ⟨⟨q, g⟩, hx, hg⟩ := hx
    obtain ⟨f, hf⟩ := Option.ne_none_iff_exists'.1 hg
    simp only at hf
    subst hf
    obtain ⟨y, hy, he⟩ := List.mem_map.1 hx
    simp only [Prod.mk.injEq] at he
    obtain ⟨i, hi⟩ := List.mem_iff_getElem?.1 hy
    rw [List.getElem?_zip_eq_some] at hi
    obtain ⟨h1, h2⟩ := changeOf_some he.2
    obtain ⟨ds, d, k1, _⟩ := hD3.complete i f ⟨_, hi.2, h1⟩
    rw [hkey, if_pos (by rw [h2]; exact hp), h2] at k1
    rw [← GoMap.get_isSome_iff, k1]
    rfl
  -- classification of the keys
  have hclass : ∀ k ∈ GoMap.keys D, (k ≠ [] ∧ c.Plain k) ∨ ∃ p, k = deletedPrefix ++ p ∧ c.Deletes p := by
    intro k hk
    obtain ⟨ds, hds⟩ := Option.isSome_iff_exists.1 ((GoMap.get_isSome_iff D k).2 hk)
    obtain ⟨i, d, hi⟩ := hD3.nonempty k ds hds
    obtain ⟨cs, f, k1, k2, k3, k4⟩ := hD3.sound k ds i d hds hi
    rw [hkey] at k3
    split at k3
    · rename_i hn
      left
      rw [← k3]
      exact ⟨hn, hplain i cs f k1 k2 hn⟩
    · rename_i hn
      exact Or.inr ⟨f.kind.prev, k3.symm, cs, List.mem_of_getElem? k1, f, k2, Classical.not_not.1 hn, rfl⟩
  have hrepo0 : ∀ q ∈ c.parents, ∃ fs, GoMap.get (repo.addCommit c.hash) q = some fs ∧ RightFiles H G q fs := by
    intro q hq
    rw [addCommit_same repo c.hash q (by rintro rfl; exact hself hq)]
    exact hrepo q hq
  -- updates
  let act : Str → Act := fun k =>
    match mergeAct env c.hash c.parents D (repo.addCommit c.hash) k with
    | .ok a => a
    | .error _ => .report [] { commit := [], lines := [] }
  have hactPlain : ∀ p, p ≠ [] → c.Plain p → p ∈ GoMap.keys D →
      mergeAct env c.hash c.parents D (repo.addCommit c.hash) p = .ok (act p) ∧
      ∃ b v, c.tree p = some v ∧ Right H G c.hash p v b ∧
      (c.Writes H p ∧ act p = .both p b ∨ ¬ c.Writes H p ∧ act p = .keep p b) := by
    intro p hp hpp hk
    obtain ⟨ds, hds⟩ := Option.isSome_iff_exists.1 ((GoMap.get_isSome_iff D p).2 hk)
    obtain ⟨h1, h2, v, hv⟩ := hDplain p ds hp hpp hds
    obtain ⟨ac, b, g1, g2, g3⟩ := mergeFile_ok hsrt hH hsplit hreg hrepo0 hG hv (diffs := D) (by rw [hds, h1]) h2
    have ha : act p = ac := by simp only [act, g1]
    rw [ha]
    exact ⟨g1, b, v, hv, g2, g3⟩
  have hactDel : ∀ p, c.Deletes p → deletedPrefix ++ p ∈ GoMap.keys D →
      mergeAct env c.hash c.parents D (repo.addCommit c.hash) (deletedPrefix ++ p) = .ok (act (deletedPrefix ++ p)) ∧
      act (deletedPrefix ++ p) = .report p { commit := c.hash, lines := [] } := by
    intro p hdp hk
    obtain ⟨ds, hds⟩ := Option.isSome_iff_exists.1 ((GoMap.get_isSome_iff D _).2 hk)
    have hdel : isDelete ds = true := by
      unfold isDelete
      rw [List.all_eq_true]
      intro d hd
      cases d with
      | none => rfl
      | some d =>
        obtain ⟨i, hi⟩ := List.mem_iff_getElem?.1 hd
        obtain ⟨cs, f, k1, k2, k3, k4⟩ := hD3.sound _ ds i d hds hi
        rw [hkey] at k3
        split at k3
        · rename_i hn
          exact absurd k3 (hplain i cs f k1 k2 hn _ hdp)
        · rename_i hn
          rw [k4]
          simp only [(meaning_norm f).2.1]
          simpa using hn
    have : mergeAct env c.hash c.parents D (repo.addCommit c.hash) (deletedPrefix ++ p) = .ok (.report p { commit := c.hash, lines := [] }) := by
      unfold mergeAct
      simp only [hds, Option.getD_some, hdel, if_true]
      rw [if_neg (by simp)]
      simp
    refine ⟨?_, ?_⟩
    · simp only [act, this]
    · simp only [act, this]
  have hact' : ∀ k ∈ env.order n 1 (GoMap.keys D), mergeAct env c.hash c.parents D (repo.addCommit c.hash) k = .ok (act k) := by
    intro k hk
    have hk := (horder _ _ _).mem_iff.1 hk
    rcases hclass k hk with ⟨h1, h2⟩ | ⟨p, rfl, hdp⟩
    · exact (hactPlain k h1 h2 hk).1
    · exact (hactDel p hdp hk).1
  obtain ⟨st, s1, s2, s3, s4⟩ := fold_acts c.hash (fun r k => mergeAct env c.hash c.parents D r k) c.parents hself
    (fun r r' h k => mergeAct_congr env c.hash c.parents D r r' h k) act (env.order n 1 (GoMap.keys D)) (repo.addCommit c.hash, []) []
    (addCommit_get _ _) hact'
  have hfold : (env.order n 1 (GoMap.keys D)).foldlM (mergeFile env c.hash c.parents D) (repo.addCommit c.hash, []) = .ok st := by
    rw [← s1]
    congr 1
    funext st x
    exact mergeFile_eq _ _ _ _ _ _
  -- kept and reported
  have hK : ∀ p b, (p, b) ∈ (env.order n 1 (GoMap.keys D)).filterMap (fun k => (act k).kept) →
      p ≠ [] ∧ c.Plain p ∧ p ∈ GoMap.keys D ∧ (act p).kept = some (p, b) ∧
      ∃ v, c.tree p = some v ∧ Right H G c.hash p v b := by
    intro p b h
    obtain ⟨k, hk, he⟩ := List.mem_filterMap.1 h
    have hk := (horder _ _ _).mem_iff.1 hk
    rcases hclass k hk with ⟨h1, h2⟩ | ⟨p', rfl, hdel⟩
    · obtain ⟨_, b', v, ht, hr, h' | h'⟩ := hactPlain k h1 h2 hk
      · have he0 := he
        rw [h'.2] at he; cases he
        exact ⟨h1, h2, hk, he0, v, ht, hr⟩
      · have he0 := he
        rw [h'.2] at he; cases he
        exact ⟨h1, h2, hk, he0, v, ht, hr⟩
    · rw [(hactDel p' hdel hk).2] at he; cases he
  have hKmem : ∀ p, p ≠ [] → c.Plain p → p ∈ GoMap.keys D →
      p ∈ ((env.order n 1 (GoMap.keys D)).filterMap (fun k => (act k).kept)).map Prod.fst := by
    intro p h1 h2 hk
    obtain ⟨_, b, v, ht, hr, h'⟩ := hactPlain p h1 h2 hk
    refine List.mem_map.2 ⟨(p, b), List.mem_filterMap.2 ⟨p, (horder _ _ _).mem_iff.2 hk, ?_⟩, rfl⟩
    rcases h' with h' | h' <;> rw [h'.2] <;> rfl
  have hRcase : ∀ p b, (p, b) ∈ (env.order n 1 (GoMap.keys D)).filterMap (fun k => (act k).reported) →
      (c.Writes H p ∧ p ∈ GoMap.keys D ∧ c.Plain p ∧ act p = .both p b) ∨
      (c.Deletes p ∧ b = { commit := c.hash, lines := [] }) := by
    intro p b h
    obtain ⟨k, hk, he⟩ := List.mem_filterMap.1 h
    have hk := (horder _ _ _).mem_iff.1 hk
    rcases hclass k hk with ⟨h1, h2⟩ | ⟨p', rfl, hdel⟩
    · obtain ⟨_, b', v, ht, hr, h' | h'⟩ := hactPlain k h1 h2 hk
      · have h'' := h'.2
        rw [h'.2] at he; cases he
        exact Or.inl ⟨h'.1, hk, h2, h''⟩
      · rw [h'.2] at he; cases he
    · rw [(hactDel p' hdel hk).2] at he; cases he
      exact Or.inr ⟨hdel, rfl⟩
  have hwr : ∀ p, c.Writes H p → p ≠ [] ∧ c.Plain p ∧ p ∈ GoMap.keys D := by
    rintro p ⟨hp, ⟨cs, hcs, hx⟩, _⟩
    obtain ⟨i, hi⟩ := List.mem_iff_getElem?.1 hcs
    obtain ⟨q, hq⟩ := hpar i cs hi
    obtain ⟨f, hf⟩ := Option.ne_none_iff_exists'.1 hx
    obtain ⟨h1, h2⟩ := changeOf_some hf
    refine ⟨hp, by rw [← h2]; exact hplain i cs f hi h1 (by rw [h2]; exact hp), hDexists p hp ⟨(q, changeOf cs p), ?_, hx⟩⟩
    exact List.mem_map.2 ⟨(q, cs), by rw [List.mem_iff_getElem?]; exact ⟨i, by rw [List.getElem?_zip_eq_some]; exact ⟨hq, hi⟩⟩, rfl⟩
  have hdl : ∀ p, c.Deletes p → deletedPrefix ++ p ∈ GoMap.keys D := by
    rintro p ⟨cs, hcs, f, hf, hn, rfl⟩
    obtain ⟨i, hi⟩ := List.mem_iff_getElem?.1 hcs
    obtain ⟨ds, d, k1, _⟩ := hD3.complete i f ⟨_, hi, hf⟩
    rw [hkey, if_neg (by simp [hn])] at k1
    rw [← GoMap.get_isSome_iff, k1]
    rfl
  have hRmem : ∀ p, p ∈ ((env.order n 1 (GoMap.keys D)).filterMap (fun k => (act k).reported)).map Prod.fst ↔
      c.Writes H p ∨ c.Deletes p := by
    intro p
    constructor
    · intro h
      obtain ⟨⟨p', b⟩, h', rfl⟩ := List.mem_map.1 h
      rcases hRcase _ _ h' with h | h
      · exact Or.inl h.1
      · exact Or.inr h.1
    · rintro (h | h)
      · obtain ⟨h1, h2, hk⟩ := hwr p h
        obtain ⟨_, b, v, ht, hr, h' | h'⟩ := hactPlain p h1 h2 hk
        · refine List.mem_map.2 ⟨(p, b), List.mem_filterMap.2 ⟨p, (horder _ _ _).mem_iff.2 hk, ?_⟩, rfl⟩
          rw [h'.2]; rfl
        · exact absurd h h'.1
      · have hk := hdl p h
        refine List.mem_map.2 ⟨(p, { commit := c.hash, lines := [] }), List.mem_filterMap.2 ⟨_, (horder _ _ _).mem_iff.2 hk, ?_⟩, rfl⟩
        rw [(hactDel p h hk).2]; rfl
  -- the second loop
  let pf : Str → Files := fun q => (GoMap.get repo q).getD []
  have hpf0 : ∀ q ∈ c.parents, GoMap.get repo q = some (pf q) := by
    intro q hq
    obtain ⟨fs, hfs, _⟩ := hrepo q hq
    simp only [pf, hfs, Option.getD_some]
  have hpf : ∀ q ∈ c.parents, GoMap.get st.1 q = some (pf q) := by
    intro q hq
    have hne : q ≠ c.hash := by rintro rfl; exact hself hq
    rw [s3 q hne]
    show GoMap.get (repo.addCommit c.hash) q = _
    rw [addCommit_same repo c.hash q hne]
    exact hpf0 q hq
  have hall := allParentFiles_ok st.1 pf c.parents hpf
  have hlmem : ∀ x, x ∈ env.order n 2 (c.parents.flatMap (fun q => GoMap.keys (pf q))).eraseDups ↔ ∃ q ∈ c.parents, x ∈ GoMap.keys (pf q) := by
    intro x
    rw [(horder _ _ _).mem_iff, List.mem_eraseDups, List.mem_flatMap]
  obtain ⟨r', fs', u1, u2, u3, u4⟩ := unchanged_loop c.hash c.parents hself pf
    (env.order n 2 (c.parents.flatMap (fun q => GoMap.keys (pf q))).eraseDups) (fun x hx => (hlmem x).1 hx) st.1 _ s2 hpf
  unfold processMergeCommit
  simp only [hD1, hfold, hall, u1, bind, Except.bind]
  refine ⟨r', _, rfl, ⟨rfl, ((addCommit_same _ _).trans s3).trans u2, ⟨fs', u3, ?_, ?_⟩, ?_, ?_⟩, D, hD3, ?_⟩
  · intro p v ht
    rw [treeOf_of_mem hH hc] at ht
    obtain ⟨hp, hpp⟩ := hcok.paths p (by rw [ht]; rfl)
    replace hpp : c.Plain p := hpp hreg
    by_cases hch : ∃ x ∈ c.changesAt p, x.2 ≠ none
    · have hm := hKmem p hp hpp (hDexists p hp hch)
      obtain ⟨b, hb, hg⟩ := putAll_mem ([] : Files) _ p hm
      obtain ⟨_, _, _, _, v', ht', hr⟩ := hK p b hb
      rw [ht] at ht'; cases ht'
      exact ⟨b, by rw [u4 p, hg], hr⟩
    · have hnone : ∀ x ∈ c.changesAt p, x.2 = none := by
        intro x hx
        cases hg : x.2 with
        | none => rfl
        | some f => exact absurd ⟨x, hx, by rw [hg]; simp⟩ hch
      have hnotin : p ∉ ((env.order n 1 (GoMap.keys D)).filterMap (fun k => (act k).kept)).map Prod.fst := by
        intro hm
        obtain ⟨⟨p', b⟩, h', rfl⟩ := List.mem_map.1 hm
        obtain ⟨_, _, hk, _⟩ := hK _ _ h'
        obtain ⟨ds, hds⟩ := Option.isSome_iff_exists.1 ((GoMap.get_isSome_iff D _).2 hk)
        exact hch (hDplain _ ds hp hpp hds).2.1
      have hget : GoMap.get (putAll ([] : Files) ((env.order n 1 (GoMap.keys D)).filterMap (fun k => (act k).kept))) p = none := by
        rw [putAll_not_mem _ _ _ hnotin]; rfl
      -- every parent has the file
      have hparents : ∀ q ∈ c.parents, ∃ b, GoMap.get (pf q) p = some b ∧ Right H G q p v b := by
        intro q hq
        obtain ⟨i, hi, he⟩ := List.getElem_of_mem hq
        have hx : (q, changeOf (c.diffs[i]'(by omega)) p) ∈ c.changesAt p := by
          refine List.mem_map.2 ⟨(q, c.diffs[i]'(by omega)), ?_, rfl⟩
          rw [List.mem_iff_getElem]
          exact ⟨i, by simp; omega, by simp [he]⟩
        have htr := (merge_change hH hsplit ht hx).2.2.1 (hnone _ hx)
        obtain ⟨fs, hfs, hr⟩ := hrepo q hq
        obtain ⟨b, hb, hb'⟩ := hr p v htr
        rw [hpf0 q hq] at hfs
        cases hfs
        exact ⟨b, hb, hb'⟩
      obtain ⟨q, hq⟩ : ∃ q, c.parents.getLast? = some q := ⟨_, List.getLast?_eq_some_getLast hpne⟩
      have hqm : q ∈ c.parents := List.mem_of_getLast? hq
      obtain ⟨b, hb, hr⟩ := hparents q hqm
      have hlc : lastCandidate pf c.parents p = some b := by
        obtain ⟨ps, hps⟩ := List.getLast?_eq_some_iff.1 hq
        unfold lastCandidate
        rw [hps, List.filterMap_append]
        simp [hb]
      refine ⟨b, ?_, ?_⟩
      · rw [u4 p, hget]
        simp only
        rw [if_pos ((hlmem p).2 ⟨q, hqm, (GoMap.get_isSome_iff _ _).1 (by rw [hb]; rfl)⟩), hlc]
      · have hbin : IsBin H c.hash p ↔ IsBin H q p := by
          constructor
          · intro h
            rcases isBin_merge hH hc hreg h with ⟨q', f, h1, _⟩ | ⟨h1, _⟩ | ⟨_, q', h1, h2⟩
            · exact absurd (hnone _ h1) (by simp)
            · exact absurd h1 hch
            · rw [hq] at h1; cases h1; exact h2
          · exact fun h => .mergeUntouched hc hreg hnone hq h
        refine ⟨hr.binary.trans hbin.symm, hr.length, fun hv j ln hj => ⟨(hr.line hv j ln hj).1, ?_⟩⟩
        refine .mergeUntouched hc hreg ?_ hnone hq (hr.line hv j ln hj).2
        intro h
        rw [hbin, ← hr.binary, hv] at h
        cases h
  · intro p hw hnd
    have hnd : ¬ c.Deletes p := by
      rcases hnd with h | h
      · exact absurd h hreg
      · exact h
    obtain ⟨b, hb, hg⟩ := putAll_mem ([] : Files) _ p ((hRmem p).2 (Or.inl hw))
    rcases hRcase p b hb with ⟨_, hk, hpp, hact⟩ | ⟨h, _⟩
    · obtain ⟨b', hb', hg'⟩ := putAll_mem ([] : Files) _ p (hKmem p hw.1 hpp hk)
      obtain ⟨_, _, _, hkept, _⟩ := hK p b' hb'
      rw [hact] at hkept
      cases hkept
      simp only [s4]
      rw [hg, u4 p, hg']
    · exact absurd h hnd
  · intro p
    rw [← hRmem, GoMap.has_iff]
    simp only [s4]
    rw [putAll_keys]
    simp [GoMap.keys]
  · intro p hdel hnw
    obtain ⟨b, hb, hg⟩ := putAll_mem ([] : Files) _ p ((hRmem p).2 (Or.inr hdel))
    simp only [s4]
    refine ⟨b, hg, ?_⟩
    rcases hRcase p b hb with ⟨h, _⟩ | ⟨_, rfl⟩
    · exact absurd h hnw
    · exact ⟨rfl, rfl, ⟨fun h => (by cases h), fun h => absurd h.1 hreg⟩⟩
  · intro p
    unfold Repo.getFileOptional
    rw [u3]
    simp only [u4 p]
    congr 1
    have hkeep : GoMap.get (putAll ([] : Files) ((env.order n 1 (GoMap.keys D)).filterMap (fun k => (act k).kept))) p =
        (if (GoMap.get D p).isSome then (match mergeAct env c.hash c.parents D repo p with
          | .ok a => a.kept.map Prod.snd
          | .error _ => none) else none) := by
      have hcongr := mergeAct_congr env c.hash c.parents D repo (repo.addCommit c.hash)
        (fun q hq => addCommit_same repo c.hash q (by rintro rfl; exact hself hq)) p
      rw [← hcongr]
      by_cases hk : p ∈ GoMap.keys D
      · rw [if_pos ((GoMap.get_isSome_iff _ _).2 hk), hact' p ((horder _ _ _).mem_iff.2 hk)]
        simp only
        by_cases hm : p ∈ ((env.order n 1 (GoMap.keys D)).filterMap (fun k => (act k).kept)).map Prod.fst
        · obtain ⟨b, hb, hg⟩ := putAll_mem ([] : Files) _ p hm
          obtain ⟨_, _, _, hkept, _⟩ := hK p b hb
          rw [hg, hkept]; rfl
        · rw [putAll_not_mem _ _ _ hm]
          rcases hclass p hk with ⟨h1, h2⟩ | ⟨p', rfl, hdel⟩
          · exact absurd (hKmem p h1 h2 hk) hm
          · rw [(hactDel p' hdel hk).2]; rfl
      · rw [if_neg (fun h => hk ((GoMap.get_isSome_iff _ _).1 h)), putAll_not_mem]
        · rfl
        · intro hm
          obtain ⟨⟨p', b⟩, h', rfl⟩ := List.mem_map.1 hm
          exact hk (hK _ _ h').2.2.1
    rw [hkeep]
    unfold mergeStored
    split
    · rfl
    · by_cases hl : p ∈ env.order n 2 (c.parents.flatMap (fun q => GoMap.keys (pf q))).eraseDups
      · rw [if_pos hl]
      · rw [if_neg hl]
        symm
        unfold lastCandidate
        rw [List.getLast?_eq_none_iff, List.filterMap_eq_nil_iff]
        intro q hq
        rw [GoMap.get_eq_none_iff]
        exact fun h => hl ((hlmem p).2 ⟨q, hq, h⟩)

/-- The collected diffs are determined. -/
theorem collected_unique {before : History} {c : HCommit} (hcok : c.Ok before) (hreg : ¬ c.Regular) (hpne : c.parents ≠ []) {D D' : DiffsByKey}
    (h : Collected c D) (h' : Collected c D') (k : Str) : GoMap.get D' k = GoMap.get D k := by
  have hplen : c.diffs.length = c.parents.length := hcok.count hpne
  have huniq : ∀ (i : Nat) cs f g, c.diffs[i]? = some cs → f ∈ cs → g ∈ cs → mergeKey f.norm.meaning = mergeKey g.norm.meaning → f = g := by
    intro i cs f g hi hf hg he
    have hilt := (List.getElem?_eq_some_iff.1 hi).1
    have hd : Describes (before.treeOf (c.parents[i]'(by omega))) c.tree cs := by
      refine hcok.diffs (c.parents[i]'(by omega), cs) ?_
      rw [List.mem_iff_getElem?]
      exact ⟨i, by rw [List.getElem?_zip_eq_some]; exact ⟨List.getElem?_eq_getElem (by omega), hi⟩⟩
    have hplain : ∀ f ∈ cs, f.kind.next ≠ [] → c.Plain f.kind.next :=
      fun f hf hn => (hcok.paths _ (hd.next f hf hn)).2 hreg
    have hkey : ∀ (f : FileChange), mergeKey f.norm.meaning = if f.kind.next ≠ [] then f.kind.next else deletedPrefix ++ f.kind.prev :=
      fun f => rfl
    apply nodup_map_inj hd.once hf hg
    unfold FileChange.target
    rw [hkey, hkey] at he
    by_cases h1 : f.kind.next = []
    · by_cases h2 : g.kind.next = []
      · rw [if_neg (by simp [h1]), if_neg (by simp [h2])] at he
        rw [if_pos h1, if_pos h2, List.append_cancel_left he]
      · rw [if_neg (by simp [h1]), if_pos h2] at he
        exact absurd he.symm (hplain g hg h2 _ ⟨cs, List.mem_of_getElem? hi, f, hf, h1, rfl⟩)
    · by_cases h2 : g.kind.next = []
      · rw [if_pos h1, if_neg (by simp [h2])] at he
        exact absurd he (hplain f hf h1 _ ⟨cs, List.mem_of_getElem? hi, g, hg, h2, rfl⟩)
      · rw [if_pos h1, if_pos h2] at he
        rw [if_neg h1, if_neg h2, he]
  have key : ∀ {D D' : DiffsByKey}, Collected c D → Collected c D' → ∀ ds, GoMap.get D k = some ds → GoMap.get D' k = some ds := by
    intro D D' h h' ds hds
    obtain ⟨i, d, hi⟩ := h.nonempty k ds hds
    obtain ⟨cs, f, k1, k2, k3, k4⟩ := h.sound k ds i d hds hi
    obtain ⟨ds', d', g1, g2⟩ := h'.complete i f ⟨cs, k1, k2⟩
    rw [k3] at g1
    rw [g1]
    congr 1
    have one : ∀ {D D' : DiffsByKey}, Collected c D → Collected c D' → ∀ ds ds', GoMap.get D k = some ds → GoMap.get D' k = some ds' →
        ∀ (j : Nat) d, ds[j]? = some (some d) → ds'[j]? = some (some d) := by
      intro D D' h h' ds ds' hds hds' j d hj
      obtain ⟨cs, f, k1, k2, k3, k4⟩ := h.sound k ds j d hds hj
      obtain ⟨ds2, d2, g1, g2⟩ := h'.complete j f ⟨cs, k1, k2⟩
      rw [k3, hds'] at g1
      cases g1
      obtain ⟨cs', f', m1, m2, m3, m4⟩ := h'.sound k ds' j d2 hds' g2
      rw [k1] at m1; cases m1
      have := huniq j cs f f' k1 k2 m2 (k3.trans m3.symm)
      subst this
      rw [g2, m4, k4]
    apply List.ext_getElem?
    intro j
    have l1 := h.len k ds hds
    have l2 := h'.len k ds' g1
    by_cases hj : j < c.parents.length
    · have e1 : ds[j]? = some (ds[j]'(by omega)) := List.getElem?_eq_getElem (by omega)
      have e2 : ds'[j]? = some (ds'[j]'(by omega)) := List.getElem?_eq_getElem (by omega)
      cases hv : ds[j]'(by omega) with
      | some d =>
        rw [hv] at e1
        rw [e1, one h h' ds ds' hds g1 j d e1]
      | none =>
        cases hv' : ds'[j]'(by omega) with
        | none => rw [e1, e2, hv, hv']
        | some d =>
          rw [hv'] at e2
          have := one h' h ds' ds g1 hds j d e2
          rw [e1, hv] at this
          cases this
    · rw [List.getElem?_eq_none (by omega), List.getElem?_eq_none (by omega)]
  cases hg : GoMap.get D k with
  | some ds => exact key h h' ds hg
  | none =>
    cases hg' : GoMap.get D' k with
    | none => rfl
    | some ds => rw [key h' h ds hg'] at hg; cases hg

theorem filterMap_congr_mem {α β : Type} {f g : α → Option β} {l : List α} (h : ∀ x ∈ l, f x = g x) : l.filterMap f = l.filterMap g := by
  induction l with
  | nil => rfl
  | cons a l ih => simp [List.filterMap_cons, h a (by simp), ih (fun x hx => h x (by simp [hx]))]

theorem mergeStored_look {env env' : Env} (he : SameEnv env env') (c : HCommit) (D D' : DiffsByKey) (hD : ∀ k, GoMap.get D' k = GoMap.get D k)
    (r r' : Repo) (h : LookEq c.parents r r') (p : Str) : mergeStored env' c D' r' p = mergeStored env c D r p := by
  have hl : lastCandidate (fun q => (GoMap.get r' q).getD []) c.parents p = lastCandidate (fun q => (GoMap.get r q).getD []) c.parents p := by
    unfold lastCandidate
    congr 1
    refine filterMap_congr_mem ?_
    intro q hq
    have h' := h q hq p
    simp only [Repo.getFileOptional] at h'
    cases h1 : GoMap.get r' q with
    | none =>
      rw [h1] at h'
      cases h2 : GoMap.get r q with
      | none => simp only [h1, h2]
      | some _ => rw [h2] at h'; cases h'
    | some a =>
      rw [h1] at h'
      cases h2 : GoMap.get r q with
      | none => rw [h2] at h'; cases h'
      | some b =>
        rw [h2] at h'
        simp only [h1, h2, Option.getD_some]
        simpa using h'
  unfold mergeStored
  rw [hD p, mergeAct_look he c.hash c.parents D D' r r' h p (hD p), hl]

end Ripsrc
