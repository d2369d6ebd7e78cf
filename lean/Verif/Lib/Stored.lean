import Verif.Lib.Missing
import Verif.Spec.Stored
/-!
# Which paths are stored for a commit, for any log and any graph
-/
namespace Ripsrc
open Spec

/-- Whatever is stored for the commit includes `f`. -/
def HasPath (f : Str) (o : Option Files) : Prop := ∀ fs, o = some fs → f ∈ GoMap.keys fs

/-- There are stored files for the commit, and they include `f`. -/
def Stored (r : Repo) (h f : Str) : Prop := ∃ fs, GoMap.get r h = some fs ∧ f ∈ GoMap.keys fs

theorem put_stored {r r' : Repo} {c f : Str} {b : Blame} (h : r.put c f b = .ok r') (x : Str) : Stored r' c x ↔ x = f ∨ Stored r c x := by
  unfold Repo.put at h
  split at h
  · cases h
  · rename_i fs hfs
    cases h
    unfold Stored
    simp only [GoMap.get_set_self, hfs, Option.some.injEq]
    constructor
    · rintro ⟨_, rfl, hx⟩
      rcases (GoMap.mem_keys_set _ _ _ _).1 hx with h | h
      · exact .inl h
      · exact .inr ⟨fs, rfl, h⟩
    · rintro (h | ⟨_, rfl, hx⟩)
      · exact ⟨_, rfl, (GoMap.mem_keys_set _ _ _ _).2 (.inl h)⟩
      · exact ⟨_, rfl, (GoMap.mem_keys_set _ _ _ _).2 (.inr hx)⟩

theorem store_stored {st st' : Repo × Files} {c f : Str} {b : Blame} (h : store c st f b = .ok st') (x : Str) :
    (Stored st'.1 c x ↔ x = f ∨ Stored st.1 c x) ∧ (x ∈ GoMap.keys st'.2 ↔ x = f ∨ x ∈ GoMap.keys st.2) := by
  unfold store at h
  obtain ⟨r, hr, h⟩ := bind_ok h
  cases h
  exact ⟨put_stored hr x, GoMap.mem_keys_set _ _ _ _⟩

/-- What one change does to the stored paths of its commit and to the reported paths. -/
theorem regularChange_stored {env : Env} {hash : Str} {parents : List Str} {st st' : Repo × Files} {ch : Str}
    (h : regularChange env hash parents st ch = .ok st') : ∃ d, parseDiff ch = .ok d ∧
      ((d.path = [] ∧ st'.1 = st.1 ∧ ∀ x, x ∈ GoMap.keys st'.2 ↔ x = d.pathPrev ∨ x ∈ GoMap.keys st.2) ∨
       (d.path ≠ [] ∧ ∀ x, (Stored st'.1 hash x ↔ x = d.path ∨ Stored st.1 hash x) ∧ (x ∈ GoMap.keys st'.2 ↔ x = d.path ∨ x ∈ GoMap.keys st.2))) := by
  unfold regularChange at h
  obtain ⟨d, hd, h⟩ := bind_ok h
  refine ⟨d, hd, ?_⟩
  by_cases hp : d.path = []
  · refine .inl ⟨hp, ?_⟩
    simp only [if_pos hp] at h
    split at h
    · cases h; exact ⟨rfl, fun x => GoMap.mem_keys_set _ _ _ _⟩
    · cases h; exact ⟨rfl, fun x => GoMap.mem_keys_set _ _ _ _⟩
  · refine .inr ⟨hp, ?_⟩
    simp only [if_neg hp] at h
    split at h
    · exact fun x => store_stored h x
    · obtain ⟨rb, hrb, h⟩ := bind_ok h
      split at h
      · exact fun x => store_stored h x
      · obtain ⟨pb, hpb, h⟩ := bind_ok h
        obtain ⟨bl, hbl, h⟩ := bind_ok h
        exact fun x => store_stored h x

/-- All changes of a regular commit. -/
theorem regularChanges_stored {env : Env} {hash : Str} {parents : List Str} : ∀ (changes : List Str) (st st' : Repo × Files),
    changes.foldlM (regularChange env hash parents) st = .ok st' → ∀ x,
      (Stored st'.1 hash x ↔ (x ≠ [] ∧ ∃ ch ∈ changes, ∃ d, parseDiff ch = .ok d ∧ d.path = x) ∨ Stored st.1 hash x) ∧
      (x ∈ GoMap.keys st'.2 ↔ (x ≠ [] ∧ ∃ ch ∈ changes, ∃ d, parseDiff ch = .ok d ∧ d.path = x) ∨
        (∃ ch ∈ changes, ∃ d, parseDiff ch = .ok d ∧ d.path = [] ∧ d.pathPrev = x) ∨ x ∈ GoMap.keys st.2) := by
  intro changes
  induction changes with
  | nil => intro st st' h x; cases h; simp
  | cons ch changes ih =>
    intro st st' h x
    rw [List.foldlM_cons] at h
    obtain ⟨s1, h1, h2⟩ := bind_ok h
    obtain ⟨i1, i2⟩ := ih s1 st' h2 x
    obtain ⟨d, hd, hcase⟩ := regularChange_stored h1
    constructor
    · rw [i1]
      rcases hcase with ⟨hp, he, _⟩ | ⟨hp, hk⟩
      · rw [he]
        constructor
        · rintro (⟨hx, c, hc, r⟩ | h)
          · exact .inl ⟨hx, c, List.mem_cons_of_mem _ hc, r⟩
          · exact .inr h
        · rintro (⟨hx, c, hc, d', hd', r⟩ | h)
          · rcases List.mem_cons.1 hc with rfl | hc
            · rw [hd] at hd'; cases hd'; exact absurd (r.symm.trans hp) hx
            · exact .inl ⟨hx, c, hc, d', hd', r⟩
          · exact .inr h
      · rw [(hk x).1]
        constructor
        · rintro (⟨hx, c, hc, r⟩ | rfl | h)
          · exact .inl ⟨hx, c, List.mem_cons_of_mem _ hc, r⟩
          · exact .inl ⟨hp, ch, List.mem_cons_self, d, hd, rfl⟩
          · exact .inr h
        · rintro (⟨hx, c, hc, d', hd', r⟩ | h)
          · rcases List.mem_cons.1 hc with rfl | hc
            · rw [hd] at hd'; cases hd'; exact .inr (.inl r.symm)
            · exact .inl ⟨hx, c, hc, d', hd', r⟩
          · exact .inr (.inr h)
    · constructor
      · intro hx
        rcases i2.1 hx with ⟨h, c, hc, r⟩ | ⟨c, hc, r⟩ | h
        · exact .inl ⟨h, c, List.mem_cons_of_mem _ hc, r⟩
        · exact .inr (.inl ⟨c, List.mem_cons_of_mem _ hc, r⟩)
        · rcases hcase with ⟨hp, _, hk⟩ | ⟨hp, hk⟩
          · rcases (hk x).1 h with rfl | h
            · exact .inr (.inl ⟨ch, List.mem_cons_self, d, hd, hp, rfl⟩)
            · exact .inr (.inr h)
          · rcases (hk x).2.1 h with rfl | h
            · exact .inl ⟨hp, ch, List.mem_cons_self, d, hd, rfl⟩
            · exact .inr (.inr h)
      · rintro (⟨hx, c, hc, d', hd', r⟩ | ⟨c, hc, d', hd', hp', r⟩ | h)
        · rcases List.mem_cons.1 hc with rfl | hc
          · rw [hd] at hd'; cases hd'
            rcases hcase with ⟨hp, _, hk⟩ | ⟨hp, hk⟩
            · exact absurd (r.symm.trans hp) hx
            · exact i2.2 (.inr (.inr ((hk x).2.2 (.inl r.symm))))
          · exact i2.2 (.inl ⟨hx, c, hc, d', hd', r⟩)
        · rcases List.mem_cons.1 hc with rfl | hc
          · rw [hd] at hd'; cases hd'
            rcases hcase with ⟨hp, _, hk⟩ | ⟨hp, hk⟩
            · exact i2.2 (.inr (.inr ((hk x).2 (.inl r.symm))))
            · exact absurd hp' hp
          · exact i2.2 (.inr (.inl ⟨c, hc, d', hd', hp', r⟩))
        · refine i2.2 (.inr (.inr ?_))
          rcases hcase with ⟨hp, _, hk⟩ | ⟨hp, hk⟩
          · exact (hk x).2 (.inr h)
          · exact (hk x).2.2 (.inr h)

/-- The loop that copies from the parent. -/
theorem copyAll_stored {hash p : Str} {res : Files} : ∀ (l : List Str) (r r' : Repo), l.foldlM (copyUnchanged hash p res) r = .ok r' → ∀ x,
    Stored r' hash x ↔ (x ∈ l ∧ x ∉ GoMap.keys res) ∨ Stored r hash x := by
  intro l
  induction l with
  | nil => intro r r' h x; cases h; simp
  | cons y l ih =>
    intro r r' h x
    rw [List.foldlM_cons] at h
    obtain ⟨r1, h1, h2⟩ := bind_ok h
    rw [ih r1 r' h2 x]
    unfold copyUnchanged at h1
    split at h1
    · rename_i hy
      cases h1
      have hy' : y ∈ GoMap.keys res := (GoMap.has_iff _ _).1 hy
      constructor
      · rintro (⟨a, b⟩ | h)
        · exact .inl ⟨List.mem_cons_of_mem _ a, b⟩
        · exact .inr h
      · rintro (⟨a, b⟩ | h)
        · rcases List.mem_cons.1 a with rfl | a
          · exact absurd hy' b
          · exact .inl ⟨a, b⟩
        · exact .inr h
    · rename_i hy
      obtain ⟨bl, _, h1⟩ := bind_ok h1
      have hy' : y ∉ GoMap.keys res := fun hc => hy ((GoMap.has_iff _ _).2 hc)
      rw [put_stored h1 x]
      constructor
      · rintro (⟨a, b⟩ | rfl | h)
        · exact .inl ⟨List.mem_cons_of_mem _ a, b⟩
        · exact .inl ⟨List.mem_cons_self, hy'⟩
        · exact .inr h
      · rintro (⟨a, b⟩ | h)
        · rcases List.mem_cons.1 a with rfl | a
          · exact .inr (.inl rfl)
          · exact .inl ⟨a, b⟩
        · exact .inr (.inr h)

/-- The paths stored for a regular commit. -/
theorem regular_stored {env : Env} (horder : ∀ n k l, (env.order n k l).Perm l) {n : Nat} {repo r : Repo} {hash : Str} {parents : List Str} {changes : List Str} {res : Result}
    (h : processRegularCommit env n repo hash parents changes = .ok (r, res)) (hne : hash ∉ parents) (x : Str) :
    (Stored r hash x ↔ (x ≠ [] ∧ ∃ ch ∈ changes, ∃ d, parseDiff ch = .ok d ∧ d.path = x) ∨ ∃ p, parents = [p] ∧ Stored repo p x ∧ x ∉ GoMap.keys res.files) ∧
      (x ∈ GoMap.keys res.files ↔ (x ≠ [] ∧ ∃ ch ∈ changes, ∃ d, parseDiff ch = .ok d ∧ d.path = x) ∨
        ∃ ch ∈ changes, ∃ d, parseDiff ch = .ok d ∧ d.path = [] ∧ d.pathPrev = x) := by
  unfold processRegularCommit at h
  split at h
  · cases h
  · rename_i hlen
    obtain ⟨st, hst, h⟩ := bind_ok h
    obtain ⟨k1, k2⟩ := regularChanges_stored changes _ _ hst x
    have h0 : ¬ Stored (repo.addCommit hash) hash x := by
      rintro ⟨fs, hfs, hx⟩
      simp only [Repo.addCommit, GoMap.get_set_self, Option.some.injEq] at hfs
      subst hfs; simp [GoMap.keys] at hx
    have k2' : x ∈ GoMap.keys st.2 ↔ (x ≠ [] ∧ ∃ ch ∈ changes, ∃ d, parseDiff ch = .ok d ∧ d.path = x) ∨
        ∃ ch ∈ changes, ∃ d, parseDiff ch = .ok d ∧ d.path = [] ∧ d.pathPrev = x := by
      rw [k2]; simp [GoMap.keys]
    match parents, hlen, hne with
    | [], _, _ =>
      cases h
      refine ⟨?_, k2'⟩
      rw [k1]
      constructor
      · rintro (h | h)
        · exact .inl h
        · exact absurd h h0
      · rintro (h | ⟨p, hp, _⟩)
        · exact .inl h
        · cases hp
    | [p], _, hne =>
      obtain ⟨files, hf, h⟩ := bind_ok h
      obtain ⟨r1, hr1, h⟩ := bind_ok h
      cases h
      refine ⟨?_, k2'⟩
      have hsame : SameBut hash repo st.1 := SameBut.trans (sameBut_set _ _ _)
        (foldlM_keeps (α := Repo × Files) (P := fun a b => SameBut hash a.1 b.1) (fun a => sameBut_refl _ _) (fun a b c h1 h2 => SameBut.trans (b := b.1) h1 h2)
          (fun _ _ _ h => regularChange_same h) _ _ _ hst)
      have hpne : p ≠ hash := by intro he; exact hne (by simp [he])
      have hfp : GoMap.get repo p = some files := by
        unfold Repo.getCommitMust at hf
        rw [hsame p hpne] at hf
        split at hf
        · cases hf
        · rename_i fs hfs; cases hf; exact hfs
      have hmem : x ∈ env.order n 0 (GoMap.keys files) ↔ Stored repo p x := by
        rw [(horder n 0 _).mem_iff]
        constructor
        · intro hx; exact ⟨files, hfp, hx⟩
        · rintro ⟨fs, hfs, hx⟩; rw [hfp] at hfs; cases hfs; exact hx
      rw [copyAll_stored _ _ _ hr1 x, k1, hmem]
      constructor
      · rintro (⟨a, b⟩ | h | h)
        · exact .inr ⟨p, rfl, a, b⟩
        · exact .inl h
        · exact absurd h h0
      · rintro (h | ⟨q, hq, a, b⟩)
        · exact .inr (.inl h)
        · cases hq; exact .inl ⟨a, b⟩
    | _ :: _ :: _, hlen, _ => simp at hlen

/-! ## Merges -/

/-- The keys of the collected diffs come from the changes. -/
def KeysFrom (P : Diff → Prop) (D : DiffsByKey) : Prop := ∀ k ds, GoMap.get D k = some ds → ∀ d, some d ∈ ds → P d ∧ mergeKey d = k

theorem addDiff_keys {P : Diff → Prop} {ps : List Str} {q : Str} {D D' : DiffsByKey} {ch : Str} (hP : ∀ d, parseDiff ch = .ok d → P d)
    (h : addDiff ps q D ch = .ok D') (hD : KeysFrom P D) : KeysFrom P D' := by
  unfold addDiff at h
  obtain ⟨d, hd, h⟩ := bind_ok h
  simp only at h
  split at h
  · cases h
    intro k ds hk x hx
    rw [GoMap.get_set] at hk
    split at hk
    · rename_i hkey
      cases hk
      rcases List.mem_or_eq_of_mem_set hx with h | h
      · cases hg : GoMap.get D (mergeKey d) with
        | none => rw [hg] at h; simp at h
        | some l => rw [hg] at h; rw [← hkey]; exact hD _ l hg x h
      · cases h; exact ⟨hP d hd, hkey⟩
    · exact hD k ds hk x hx
  · cases h

theorem addPart_keys {P : Diff → Prop} {ps : List Str} {parts : GoMap Str LogCommit} (hP : ∀ q e, GoMap.get parts q = some e → ∀ ch ∈ e.changes, ∀ d, parseDiff ch = .ok d → P d)
    {D D' : DiffsByKey} {q : Str} (h : addPart ps parts D q = .ok D') (hD : KeysFrom P D) : KeysFrom P D' := by
  unfold addPart at h
  have hch : ∀ ch ∈ ((GoMap.get parts q).getD {}).changes, ∀ d, parseDiff ch = .ok d → P d := by
    cases hg : GoMap.get parts q with
    | none => intro ch hc; simp at hc
    | some e => exact hP q e hg
  revert h hD hch
  generalize ((GoMap.get parts q).getD {}).changes = l
  intro h hD hch
  induction l generalizing D with
  | nil => cases h; exact hD
  | cons ch l ih =>
    rw [List.foldlM_cons] at h
    obtain ⟨D1, h1, h2⟩ := bind_ok h
    exact ih h2 (addDiff_keys (hch ch List.mem_cons_self) h1 hD) (fun c hc => hch c (List.mem_cons_of_mem _ hc))

theorem mergeFile_stored {P : Diff → Prop} {env : Env} {hash : Str} {ps : List Str} {D : DiffsByKey} (hD : KeysFrom P D) {st st' : Repo × Files} {k : Str}
    (h : mergeFile env hash ps D st k = .ok st') (x : Str) : (Stored st.1 hash x → Stored st'.1 hash x) ∧
      (Stored st'.1 hash x → Stored st.1 hash x ∨ ∃ d, P d ∧ d.path = x ∧ x ≠ []) := by
  have hk : isDelete ((GoMap.get D k).getD []) = false → ∃ d, P d ∧ d.path = k ∧ k ≠ [] := by
    intro hdel
    unfold isDelete at hdel
    rw [List.all_eq_false] at hdel
    obtain ⟨o, ho, hno⟩ := hdel
    cases o with
    | none => simp at hno
    | some d =>
      have hne : d.path ≠ [] := by simpa using hno
      cases hg : GoMap.get D k with
      | none => rw [hg] at ho; simp at ho
      | some ds =>
        rw [hg] at ho
        obtain ⟨a, b⟩ := hD k ds hg d ho
        have hkd : d.path = k := by rw [← b]; simp [mergeKey, hne]
        exact ⟨d, a, hkd, hkd ▸ hne⟩
  have hput : ∀ {r r' : Repo} {b : Blame}, isDelete ((GoMap.get D k).getD []) = false → r.put hash k b = .ok r' → (Stored r hash x → Stored r' hash x) ∧
      (Stored r' hash x → Stored r hash x ∨ ∃ d, P d ∧ d.path = x ∧ x ≠ []) := by
    intro r r' b hdel hp
    rw [put_stored hp x]
    refine ⟨.inr, ?_⟩
    rintro (rfl | h)
    · exact .inr (hk hdel)
    · exact .inl h
  have hstore : ∀ {b : Blame}, isDelete ((GoMap.get D k).getD []) = false → store hash st k b = .ok st' → (Stored st.1 hash x → Stored st'.1 hash x) ∧
      (Stored st'.1 hash x → Stored st.1 hash x ∨ ∃ d, P d ∧ d.path = x ∧ x ≠ []) := by
    intro b hdel hs
    unfold store at hs
    obtain ⟨r, hr, hs⟩ := bind_ok hs
    cases hs
    exact hput hdel hr
  unfold mergeFile at h
  simp only at h
  split at h
  · split at h
    · cases h
    · cases h; exact ⟨id, .inl⟩
  · rename_i hdel
    have hdel' : isDelete ((GoMap.get D k).getD []) = false := by simpa using hdel
    obtain ⟨bp, _, h⟩ := bind_ok h
    split at h
    · exact hstore hdel' h
    · obtain ⟨same, _, h⟩ := bind_ok h
      split at h
      · obtain ⟨r, hr, h⟩ := bind_ok h
        cases h
        exact hput hdel' hr
      · obtain ⟨pbs, _, h⟩ := bind_ok h
        obtain ⟨bl, _, h⟩ := bind_ok h
        exact hstore hdel' h

theorem allParentFiles_mem {r : Repo} {x : Str} : ∀ (ps files : List Str), allParentFiles r ps = .ok files → (x ∈ files ↔ ∃ p ∈ ps, Stored r p x) := by
  intro ps
  induction ps with
  | nil => intro files h; cases h; simp
  | cons p ps ih =>
    intro files h
    unfold allParentFiles at h
    obtain ⟨fs, h1, h⟩ := bind_ok h
    obtain ⟨rest, h2, h⟩ := bind_ok h
    cases h
    have hfs : GoMap.get r p = some fs := by
      unfold Repo.getCommitMust at h1
      split at h1
      · cases h1
      · rename_i hg; cases h1; exact hg
    rw [List.mem_append, ih rest h2]
    constructor
    · rintro (h | ⟨q, hq, h⟩)
      · exact ⟨p, List.mem_cons_self, fs, hfs, h⟩
      · exact ⟨q, List.mem_cons_of_mem _ hq, h⟩
    · rintro ⟨q, hq, fs', hf', hk⟩
      rcases List.mem_cons.1 hq with hqp | hq
      · rw [hqp, hfs] at hf'; exact .inl (Option.some.inj hf' ▸ hk)
      · exact .inr ⟨q, hq, fs', hf', hk⟩

theorem mergeUnchanged_stored {hash : Str} {ps : List Str} {r r' : Repo} {f : Str} (h : mergeUnchanged hash ps r f = .ok r') (x : Str) :
    Stored r' hash x ↔ x = f ∨ Stored r hash x := by
  unfold mergeUnchanged at h
  obtain ⟨bl, hbl, h⟩ := bind_ok h
  split at h
  · cases h
    rename_i b
    have hs : Stored r hash f := by
      unfold Repo.getFileOptional at hbl
      split at hbl
      · cases hbl
      · rename_i fs hfs
        have hg : GoMap.get fs f = some b := Except.ok.inj hbl
        exact ⟨fs, hfs, (GoMap.get_isSome_iff _ _).1 (by rw [hg]; rfl)⟩
    constructor
    · exact .inr
    · rintro (rfl | h)
      · exact hs
      · exact h
  · obtain ⟨cs, _, h⟩ := bind_ok h
    split at h
    · cases h
    · exact put_stored h x

/-- The paths stored for a merge. -/
theorem merge_stored {P : Diff → Prop} {env : Env} (horder : ∀ n k l, (env.order n k l).Perm l) {n : Nat} {repo r : Repo} {hash : Str} {ps : List Str} {parts : GoMap Str LogCommit} {res : Result}
    (hP : ∀ q e, GoMap.get parts q = some e → ∀ ch ∈ e.changes, ∀ d, parseDiff ch = .ok d → P d)
    (h : processMergeCommit env n repo hash ps parts = .ok (r, res)) (hne : hash ∉ ps) (x : Str) :
    (∀ p ∈ ps, Stored repo p x → Stored r hash x) ∧ (Stored r hash x → (∃ p ∈ ps, Stored repo p x) ∨ ∃ d, P d ∧ d.path = x ∧ x ≠ []) := by
  unfold processMergeCommit at h
  obtain ⟨D, hD, h⟩ := bind_ok h
  obtain ⟨st, hst, h⟩ := bind_ok h
  obtain ⟨files, hf, h⟩ := bind_ok h
  obtain ⟨r1, hr1, h⟩ := bind_ok h
  cases h
  have hkeys : KeysFrom P D := by
    have : ∀ (l : List Str) (D0 D1 : DiffsByKey), l.foldlM (addPart ps parts) D0 = .ok D1 → KeysFrom P D0 → KeysFrom P D1 := by
      intro l
      induction l with
      | nil => intro D0 D1 h h0; cases h; exact h0
      | cons q l ih =>
        intro D0 D1 h h0
        rw [List.foldlM_cons] at h
        obtain ⟨D2, h1, h2⟩ := bind_ok h
        exact ih D2 D1 h2 (addPart_keys hP h1 h0)
    exact this _ _ _ hD (by intro k ds hk; simp at hk)
  have hsame : SameBut hash repo st.1 := SameBut.trans (sameBut_set _ _ _)
    (foldlM_keeps (α := Repo × Files) (P := fun a b => SameBut hash a.1 b.1) (fun a => sameBut_refl _ _) (fun a b c h1 h2 => SameBut.trans (b := b.1) h1 h2)
      (fun _ _ _ h => mergeFile_same h) _ _ _ hst)
  have hpar : ∀ p ∈ ps, (Stored st.1 p x ↔ Stored repo p x) := by
    intro p hp
    unfold Stored
    rw [hsame p (fun he => hne (he ▸ hp))]
  have h0 : ¬ Stored (repo.addCommit hash) hash x := by
    rintro ⟨fs, hfs, hx⟩
    simp only [Repo.addCommit, GoMap.get_set_self, Option.some.injEq] at hfs
    subst hfs; simp [GoMap.keys] at hx
  have hfold : ∀ (l : List Str) (s s' : Repo × Files), l.foldlM (mergeFile env hash ps D) s = .ok s' → Stored s'.1 hash x → Stored s.1 hash x ∨ ∃ d, P d ∧ d.path = x ∧ x ≠ [] := by
    intro l
    induction l with
    | nil => intro s s' h hs; cases h; exact .inl hs
    | cons k l ih =>
      intro s s' h hs
      rw [List.foldlM_cons] at h
      obtain ⟨s1, h1, h2⟩ := bind_ok h
      rcases ih s1 s' h2 hs with h | h
      · exact (mergeFile_stored hkeys h1 x).2 h
      · exact .inr h
  have hun : ∀ (l : List Str) (a b : Repo), l.foldlM (mergeUnchanged hash ps) a = .ok b → (Stored b hash x ↔ x ∈ l ∨ Stored a hash x) := by
    intro l
    induction l with
    | nil => intro a b h; cases h; simp
    | cons k l ih =>
      intro a b h
      rw [List.foldlM_cons] at h
      obtain ⟨a1, h1, h2⟩ := bind_ok h
      rw [ih a1 b h2, mergeUnchanged_stored h1 x, List.mem_cons]
      constructor
      · rintro (h | h | h)
        · exact .inl (.inr h)
        · exact .inl (.inl h)
        · exact .inr h
      · rintro ((h | h) | h)
        · exact .inr (.inl h)
        · exact .inl h
        · exact .inr (.inr h)
  have hmem : x ∈ env.order n 2 files.eraseDups ↔ ∃ p ∈ ps, Stored repo p x := by
    rw [(horder n 2 _).mem_iff, List.mem_eraseDups, allParentFiles_mem ps files hf]
    constructor
    · rintro ⟨p, hp, hs⟩; exact ⟨p, hp, (hpar p hp).1 hs⟩
    · rintro ⟨p, hp, hs⟩; exact ⟨p, hp, (hpar p hp).2 hs⟩
  rw [hun _ _ _ hr1, hmem]
  constructor
  · intro p hp hs; exact .inl ⟨p, hp, hs⟩
  · rintro (h | h)
    · exact .inl h
    · rcases hfold _ _ _ hst h with h | h
      · exact absurd h h0
      · exact .inr h

/-! ## The run -/

/-- A property of the stored files of commits that holds of missing ones. -/
def Everywhere (I : Str → Option Files → Prop) (r : Repo) : Prop := ∀ h, I h (GoMap.get r h)

theorem trim_everywhere {I : Str → Option Files → Prop} (h0 : ∀ h, I h none) {s : Proc} (c : Str) (hs : Everywhere I s.repo) : Everywhere I (s.trim c).repo :=
  fun h => keeps_trim (Q := I h) (h0 h) (hs h)

/-- What holds while a log is processed, for an invariant on the stored files. -/
structure Along (I : Str → Option Files → Prop) (g : Graph) (log : List LogCommit) (s : Proc) : Prop where
  graph : s.graph = g
  repo : Everywhere I s.repo
  pending : s.mergeParts.length > 0 → 1 < (g.parentsOf s.mergePartsCommit).length
  parts : ∀ q e, GoMap.get s.mergeParts q = some e → e ∈ log ∧ e.hash = s.mergePartsCommit

section
variable {I : Str → Option Files → Prop} {g : Graph} {log : List LogCommit} {env : Env}
variable (h0 : ∀ h, I h none)
variable (hreg : ∀ e ∈ log, ∀ n repo r res, (g.parentsOf e.hash).length ≤ 1 → Everywhere I repo →
  processRegularCommit env n repo e.hash (g.parentsOf e.hash) e.changes = .ok (r, res) → I e.hash (GoMap.get r e.hash))
variable (hmer : ∀ h parts n repo r res, 1 < (g.parentsOf h).length → Everywhere I repo → (∀ q e, GoMap.get parts q = some e → e ∈ log ∧ e.hash = h) →
  processMergeCommit env n repo h (g.parentsOf h) parts = .ok (r, res) → I h (GoMap.get r h))
include h0 hreg hmer

theorem finishMerge_along {s s' : Proc} (ha : Along I g log s) (hl : s.mergeParts.length > 0) (h : s.finishMerge env = .ok s') :
    Along I g log s' ∧ s'.mergeParts = [] := by
  obtain ⟨_, h2, h3⟩ := finishMerge_sent h
  refine ⟨⟨h2.trans ha.graph, ?_, by rw [h3]; simp, by rw [h3]; intro q e he; simp at he⟩, h3⟩
  unfold Proc.finishMerge at h
  split at h
  · cases h
  · rename_i r res hm
    cases h
    have hpar : s.parents s.mergePartsCommit = g.parentsOf s.mergePartsCommit := by simp only [Proc.parents, ha.graph]; rfl
    refine trim_everywhere h0 (s := { s with repo := r, lastProcessed := s.mergePartsCommit }) _ ?_
    intro x
    by_cases hx : x = s.mergePartsCommit
    · subst hx
      rw [hpar] at hm
      exact hmer _ _ _ _ _ _ (ha.pending hl) ha.repo ha.parts hm
    · simp only [merge_same hm x hx]; exact ha.repo x

theorem newCommit_along {s s' : Proc} {c : LogCommit} (ha : Along I g log s) (hc : c ∈ log) (h1 : s.mergeParts = []) (h : s.newCommit env c = .ok s') : Along I g log s' := by
  have hpar : s.parents c.hash = g.parentsOf c.hash := by simp only [Proc.parents, ha.graph]; rfl
  unfold Proc.newCommit at h
  split at h
  · rename_i hm
    cases h
    refine ⟨ha.graph, ha.repo, fun _ => by rw [hpar] at hm; exact hm, ?_⟩
    intro q e he
    have := GoMap.mem_of_get he
    simp at this
    rw [this.2]; exact ⟨hc, rfl⟩
  · rename_i hm
    obtain ⟨⟨r, res⟩, hr, h⟩ := bind_ok h
    cases h
    have t := trim_keep { s with repo := r, lastProcessed := c.hash } c.hash
    refine ⟨t.2.1.trans ha.graph, ?_, ?_, ?_⟩
    · refine trim_everywhere h0 (s := { s with repo := r, lastProcessed := c.hash }) _ ?_
      intro x
      by_cases hx : x = c.hash
      · subst hx
        rw [hpar] at hr hm
        exact hreg c hc _ _ _ _ (by omega) ha.repo hr
      · simp only [regular_same hr x hx]; exact ha.repo x
    · intro hl
      have ht : (Proc.trim { s with repo := r, lastProcessed := c.hash } c.hash).mergeParts = [] := t.2.2.1.trans h1
      rw [ht] at hl; cases hl
    · intro q e he
      have ht : (Proc.trim { s with repo := r, lastProcessed := c.hash } c.hash).mergeParts = [] := t.2.2.1.trans h1
      rw [ht] at he; cases he

theorem commit_along {s s' : Proc} {c : LogCommit} {e : Option Fault} (ha : Along I g log s) (hc : c ∈ log) (h : s.commit env c = (s', e)) : Along I g log s' := by
  unfold Proc.commit at h
  split at h
  · rename_i hl
    split at h
    · rename_i hm
      cases h
      refine ⟨ha.graph, ha.repo, fun _ => ha.pending hl, ?_⟩
      intro q x hx
      simp only [GoMap.get_set] at hx
      split at hx
      · cases hx; exact ⟨hc, hm.symm⟩
      · exact ha.parts q x hx
    · split at h
      · cases h; exact ha
      · rename_i s1 hf
        obtain ⟨b1, b2⟩ := finishMerge_along h0 hreg hmer ha hl hf
        split at h
        · cases h; exact b1
        · rename_i s2 hn
          cases h; exact newCommit_along h0 hreg hmer b1 hc b2 hn
  · rename_i hl
    split at h
    · cases h; exact ha
    · rename_i s2 hn
      cases h; exact newCommit_along h0 hreg hmer ha hc (List.length_eq_zero_iff.1 (by omega)) hn

theorem loop_along : ∀ (l : List LogCommit) (s s' : Proc) (e : Option Fault), (∀ c ∈ l, c ∈ log) → s.loop env l = (s', e) → Along I g log s → Along I g log s' := by
  intro l
  induction l with
  | nil => intro s s' e _ h ha; cases h; exact ha
  | cons c cs ih =>
    intro s s' e hm h ha
    unfold Proc.loop at h
    split at h
    · rename_i h1; cases h; exact commit_along h0 hreg hmer ha (hm c List.mem_cons_self) h1
    · rename_i h1; exact ih _ s' e (fun x hx => hm x (List.mem_cons_of_mem _ hx)) h (commit_along h0 hreg hmer ha (hm c List.mem_cons_self) h1)

/-- What is written has the invariant, if what the run starts from has it. -/
theorem run_everywhere {opts : RunOpts} {read : Str → Go Repo} {R0 R : Repo} {last : Str} (hinit : initCheckpoints opts read = .ok R0) (hR0 : Everywhere I R0)
    (h : (run env opts read g log).written = some (R, last)) : Everywhere I R := by
  unfold run at h
  split at h
  · cases h
  · rw [hinit] at h
    simp only at h
    split at h
    · cases h
    · rename_i s hl
      have ha : Along I g log s := loop_along h0 hreg hmer log _ _ _ (fun _ h => h) hl
        ⟨rfl, hR0, by simp, by intro q e he; simp at he⟩
      split at h
      · rename_i hm
        split at h
        · cases h
        · rename_i s2 hf
          cases h
          exact (finishMerge_along h0 hreg hmer ha hm hf).1.repo
      · cases h; exact ha.repo

end

end Ripsrc
