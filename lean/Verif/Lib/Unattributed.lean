import Verif.Lib.Stored
import Verif.Lib.MergeAll
import Verif.Spec.GitConfig
/-!
# Merges whose log entries do not name their parent
-/
namespace Ripsrc
open Spec

theorem hashToParOrd_none {ps : List Str} {q : Str} (h : q ∉ ps) : GoMap.get (hashToParOrd ps) q = none := by
  rw [GoMap.get_eq_none_iff]
  have key : ∀ (l : List (Str × Nat)) (m : GoMap Str Nat), q ∉ GoMap.keys m → q ∉ l.map Prod.fst →
      q ∉ GoMap.keys (l.foldl (fun m e => GoMap.set m e.1 e.2) m) := by
    intro l
    induction l with
    | nil => intro m h _; exact h
    | cons x l ih =>
      intro m h1 h2
      simp only [List.map_cons, List.mem_cons, not_or] at h2
      refine ih _ ?_ h2.2
      intro hc
      rcases (GoMap.mem_keys_set _ _ _ _).1 hc with h | h
      · exact h2.1 h
      · exact h1 h
  refine key _ _ (by simp [GoMap.keys]) ?_
  rw [zipIdx_keys]; exact h

/-- All diffs are recorded for the first parent. -/
def FirstOnly (P : Diff → Prop) (n : Nat) (D : DiffsByKey) : Prop :=
  ∀ k v, GoMap.get D k = some v → ∃ d, v = some d :: List.replicate n none ∧ mergeKey d = k ∧ P d

theorem addDiff_first {P : Diff → Prop} {p1 q : Str} {rest : List Str} (hq : q ∉ p1 :: rest) {D D' : DiffsByKey} {ch : Str} (hP : ∀ d, parseDiff ch = .ok d → P d)
    (h : addDiff (p1 :: rest) q D ch = .ok D') (hD : FirstOnly P rest.length D) :
    FirstOnly P rest.length D' ∧ (∀ k, k ∈ GoMap.keys D → k ∈ GoMap.keys D') ∧ ∀ d, parseDiff ch = .ok d → mergeKey d ∈ GoMap.keys D' := by
  unfold addDiff at h
  obtain ⟨d, hd, h⟩ := bind_ok h
  simp only [hashToParOrd_none hq, Option.getD_none] at h
  split at h
  · cases h
    refine ⟨?_, fun k hk => (GoMap.mem_keys_set _ _ _ _).2 (.inr hk), ?_⟩
    · intro k v hk
      rw [GoMap.get_set] at hk
      split at hk
      · rename_i hkey
        cases hk
        refine ⟨d, ?_, hkey, hP d hd⟩
        cases hg : GoMap.get D (mergeKey d) with
        | none => simp [List.replicate_succ]
        | some l =>
          obtain ⟨d0, hl, _⟩ := hD _ _ hg
          simp [hl]
      · exact hD k v hk
    · intro d' hd'
      rw [hd] at hd'; cases hd'
      exact (GoMap.mem_keys_set _ _ _ _).2 (.inl rfl)
  · cases h

theorem addPart_first {parts : GoMap Str LogCommit} {p1 q : Str} {rest : List Str} (hq : q ∉ p1 :: rest) {D D' : DiffsByKey}
    (h : addPart (p1 :: rest) parts D q = .ok D') (hD : FirstOnly (ReadsChange parts) rest.length D) :
    FirstOnly (ReadsChange parts) rest.length D' ∧ (∀ k, k ∈ GoMap.keys D → k ∈ GoMap.keys D') ∧
      ∀ e, GoMap.get parts q = some e → ∀ ch ∈ e.changes, ∀ d, parseDiff ch = .ok d → mergeKey d ∈ GoMap.keys D' := by
  unfold addPart at h
  cases hg : GoMap.get parts q with
  | none =>
    rw [hg] at h
    cases h
    exact ⟨hD, fun _ h => h, by simp⟩
  | some e =>
    rw [hg] at h
    simp only [Option.getD_some] at h
    have key : ∀ (l : List Str) (D0 D1 : DiffsByKey), (∀ ch ∈ l, ch ∈ e.changes) → l.foldlM (addDiff (p1 :: rest) q) D0 = .ok D1 →
        FirstOnly (ReadsChange parts) rest.length D0 → FirstOnly (ReadsChange parts) rest.length D1 ∧ (∀ k, k ∈ GoMap.keys D0 → k ∈ GoMap.keys D1) ∧
          ∀ ch ∈ l, ∀ d, parseDiff ch = .ok d → mergeKey d ∈ GoMap.keys D1 := by
      intro l
      induction l with
      | nil => intro D0 D1 _ h h0; cases h; exact ⟨h0, fun _ h => h, by simp⟩
      | cons ch l ih =>
        intro D0 D1 hl h h0
        rw [List.foldlM_cons] at h
        obtain ⟨D2, h1, h2⟩ := bind_ok h
        obtain ⟨a1, a2, a3⟩ := addDiff_first hq (P := ReadsChange parts) (fun d hd => ⟨q, e, hg, ch, hl ch List.mem_cons_self, hd⟩) h1 h0
        obtain ⟨b1, b2, b3⟩ := ih D2 D1 (fun c hc => hl c (List.mem_cons_of_mem _ hc)) h2 a1
        refine ⟨b1, fun k hk => b2 k (a2 k hk), ?_⟩
        intro c hc d hd
        rcases List.mem_cons.1 hc with rfl | hc
        · exact b2 _ (a3 d hd)
        · exact b3 c hc d hd
    obtain ⟨a1, a2, a3⟩ := key _ _ _ (fun _ h => h) h hD
    refine ⟨a1, a2, ?_⟩
    intro e' he'; cases he'; exact a3

theorem addParts_first {parts : GoMap Str LogCommit} {p1 : Str} {rest : List Str} : ∀ (l : List Str) (D D' : DiffsByKey), (∀ q ∈ l, q ∉ p1 :: rest) →
    l.foldlM (addPart (p1 :: rest) parts) D = .ok D' → FirstOnly (ReadsChange parts) rest.length D →
    FirstOnly (ReadsChange parts) rest.length D' ∧ (∀ k, k ∈ GoMap.keys D → k ∈ GoMap.keys D') ∧
      ∀ q ∈ l, ∀ e, GoMap.get parts q = some e → ∀ ch ∈ e.changes, ∀ d, parseDiff ch = .ok d → mergeKey d ∈ GoMap.keys D' := by
  intro l
  induction l with
  | nil => intro D D' _ h h0; cases h; exact ⟨h0, fun _ h => h, by simp⟩
  | cons q l ih =>
    intro D D' hl h h0
    rw [List.foldlM_cons] at h
    obtain ⟨D1, h1, h2⟩ := bind_ok h
    obtain ⟨a1, a2, a3⟩ := addPart_first (hl q List.mem_cons_self) h1 h0
    obtain ⟨b1, b2, b3⟩ := ih D1 D' (fun x hx => hl x (List.mem_cons_of_mem _ hx)) h2 a1
    refine ⟨b1, fun k hk => b2 k (a2 k hk), ?_⟩
    intro x hx e he ch hch d hd
    rcases List.mem_cons.1 hx with rfl | hx
    · exact b2 _ (a3 e he ch hch d hd)
    · exact b3 x hx e he ch hch d hd

theorem zip_replicate_none (rest : List Str) : rest.zip (List.replicate rest.length (none : Option Diff)) = rest.map (fun q => (q, none)) := by
  induction rest with
  | nil => rfl
  | cons q rest ih => simp [List.replicate_succ, ih]

theorem sameAsParent_nones {repo : Repo} {k : Str} : ∀ {rest : List Str} {o : Option Blame}, sameAsParent repo k (rest.map (fun q => (q, none))) = .ok o →
    o = firstStored repo k rest := by
  intro rest
  induction rest with
  | nil => intro o h; cases h; rfl
  | cons q rest ih =>
    intro o h
    simp only [List.map_cons, sameAsParent] at h
    obtain ⟨pb, hpb, h⟩ := bind_ok h
    unfold Repo.getFileOptional at hpb
    split at hpb
    · cases hpb
    · rename_i fs hfs
      have hpb' : GoMap.get fs k = pb := Except.ok.inj hpb
      unfold firstStored
      simp only [hfs, Option.bind_some, hpb']
      cases pb with
      | some b => cases h; rfl
      | none => exact ih h

theorem firstStored_same {hash : Str} {r r' : Repo} (h : SameBut hash r r') (k : Str) : ∀ (ps : List Str), hash ∉ ps → firstStored r' k ps = firstStored r k ps := by
  intro ps
  induction ps with
  | nil => intro _; rfl
  | cons p ps ih =>
    intro hn
    simp only [List.mem_cons, not_or] at hn
    unfold firstStored
    rw [h p (fun he => hn.1 he.symm), ih hn.2]

theorem mergeKey_path {d : Diff} {k : Str} (hk : ¬ deletedPrefix <+: k) (h : mergeKey d = k) : d.path = k ∧ d.path ≠ [] := by
  unfold mergeKey at h
  split at h
  · rename_i hp; exact ⟨h, hp⟩
  · exact absurd ⟨d.pathPrev, h⟩ hk

theorem mergeParents_tail {repo : Repo} {k p : Str} {d : Option Diff} {l : List (Str × Option Diff)} {bs : List Blame} (h : mergeParents repo k ((p, d) :: l) = .ok bs) :
    ∃ bs', mergeParents repo k l = .ok bs' := by
  cases hl : mergeParents repo k l with
  | ok bs' => exact ⟨bs', rfl⟩
  | error e =>
    exfalso
    unfold mergeParents at h
    rw [hl] at h
    simp only [bind, Except.bind] at h
    repeat' split at h
    all_goals cases h

theorem mergeParents_none {repo : Repo} {k p : Str} {l : List (Str × Option Diff)} {bs : List Blame} (h : mergeParents repo k ((p, none) :: l) = .ok bs) :
    ∃ b, repo.getFileOptional p k = .ok (some b) := by
  unfold mergeParents at h
  simp only [bind, Except.bind] at h
  cases hg : repo.getFileOptional p k with
  | error e => rw [hg] at h; cases h
  | ok o =>
    cases o with
    | some b => exact ⟨b, rfl⟩
    | none => rw [hg] at h; cases h

theorem addDiff_wf {ps : List Str} {q : Str} {D D' : DiffsByKey} {ch : Str} (h : addDiff ps q D ch = .ok D') (hD : GoMap.WF D) : GoMap.WF D' := by
  unfold addDiff at h
  obtain ⟨d, hd, h⟩ := bind_ok h
  simp only at h
  split at h
  · cases h; exact GoMap.wf_set hD _ _
  · cases h

theorem addParts_wf {ps : List Str} {parts : GoMap Str LogCommit} {D D' : DiffsByKey} (l : List Str) (h : l.foldlM (addPart ps parts) D = .ok D') (hD : GoMap.WF D) :
    GoMap.WF D' :=
  foldlM_keeps (P := fun a b => GoMap.WF a → GoMap.WF b) (fun _ h => h) (fun _ _ _ h1 h2 h => h2 (h1 h))
    (fun _ _ _ h => foldlM_keeps (P := fun a b => GoMap.WF a → GoMap.WF b) (fun _ h => h) (fun _ _ _ h1 h2 h => h2 (h1 h)) (fun _ _ _ h => addDiff_wf h) _ _ _ h) _ _ _ h hD

/-- The iteration for path `k`. -/
theorem mergeFile_first {env : Env} {hash p1 k : Str} {rest : List Str} {repo : Repo} {parts : GoMap Str LogCommit} {D : DiffsByKey} {st st' : Repo × Files}
    (hD : FirstOnly (ReadsChange parts) rest.length D) (hk : k ∈ GoMap.keys D) (hpl : PlainChange repo parts p1 k) (hsame : SameBut hash repo st.1) (hne : hash ∉ p1 :: rest)
    (h : mergeFile env hash (p1 :: rest) D st k = .ok st') :
    (∃ b, firstStored repo k rest = some b ∧ st.1.put hash k b = .ok st'.1 ∧ st'.2 = st.2) ∨
    (firstStored repo k rest = none ∧ rest = []) := by
  simp only [List.mem_cons, not_or] at hne
  cases hg : GoMap.get D k with
  | none => exact absurd hk ((GoMap.get_eq_none_iff _ _).1 hg)
  | some v =>
    obtain ⟨d, rfl, hkey, hread⟩ := hD _ _ hg
    obtain ⟨hpath, hpne⟩ := mergeKey_path hpl.path.2 hkey
    unfold mergeFile at h
    simp only [hg, Option.getD_some, List.zip_cons_cons, zip_replicate_none] at h
    rw [if_neg (by simp [isDelete, hpne])] at h
    obtain ⟨bp, hbp, h⟩ := bind_ok h
    have hbin : anyBinaryDiff (some d :: List.replicate rest.length none) = false := by
      simp [anyBinaryDiff, hpl.text d hread hpath]
    have hnone : ∀ (l : List Str), anyBinaryParent st.1 (l.map (fun q => (q, none))) = .ok false := by
      intro l
      induction l with
      | nil => rfl
      | cons q l ih => simpa [anyBinaryParent] using ih
    have hbpf : bp = false := by
      unfold anyBinaryParent at hbp
      split at hbp
      · rw [hnone] at hbp; cases hbp; rfl
      · rename_i hprev
        obtain ⟨pb, hpb, hbp⟩ := bind_ok hbp
        obtain ⟨x, hx, hbp⟩ := bind_ok hbp
        rw [hnone] at hx; cases hx
        cases hbp
        rw [Bool.or_false]
        unfold Repo.getFileMust at hpb
        rw [hsame p1 (fun he => hne.1 he.symm)] at hpb
        split at hpb
        · cases hpb
        · rename_i fs hfs
          split at hpb
          · cases hpb
          · rename_i b hb
            cases hpb
            exact hpl.old d hread hpath hprev fs _ hfs hb
    rw [hbin, hbpf, if_neg (by simp)] at h
    obtain ⟨same, hs, h⟩ := bind_ok h
    have hs' : sameAsParent st.1 k (rest.map (fun q => (q, none))) = .ok same := by
      simpa [sameAsParent] using hs
    have hfs := sameAsParent_nones hs'
    rw [firstStored_same hsame k rest hne.2] at hfs
    cases hsm : same with
    | some b =>
      rw [hsm] at h
      obtain ⟨r, hr, h⟩ := bind_ok h
      cases h
      exact .inl ⟨b, by rw [← hfs, hsm], hr, rfl⟩
    | none =>
      rw [hsm] at h
      right
      refine ⟨by rw [← hfs, hsm], ?_⟩
      obtain ⟨ps, hps, _⟩ := bind_ok h
      cases rest with
      | nil => rfl
      | cons q rest =>
        exfalso
        simp only [List.map_cons] at hps
        obtain ⟨bs, hbs⟩ := mergeParents_tail hps
        obtain ⟨b, hb⟩ := mergeParents_none hbs
        simp only [List.map_cons, sameAsParent, hb, bind, Except.bind] at hs'
        cases hs'; cases hsm

/-- The iterations for other keys leave `k` alone. -/
theorem mergeFile_other {env : Env} {hash k k' : Str} {ps : List Str} {parts : GoMap Str LogCommit} {D : DiffsByKey} {m : Nat} {st st' : Repo × Files}
    (hD : FirstOnly (ReadsChange parts) m D) (hk' : k' ∈ GoMap.keys D) (hdel : ∀ d, ReadsChange parts d → d.path = [] → d.pathPrev ≠ k) (hne : k' ≠ k) (h : mergeFile env hash ps D st k' = .ok st') :
    (∀ fs, GoMap.get st.1 hash = some fs → ∃ fs', GoMap.get st'.1 hash = some fs' ∧ GoMap.get fs' k = GoMap.get fs k) ∧ GoMap.get st'.2 k = GoMap.get st.2 k := by
  have hput : ∀ {r r' : Repo} {b : Blame}, r.put hash k' b = .ok r' → ∀ fs, GoMap.get r hash = some fs → ∃ fs', GoMap.get r' hash = some fs' ∧ GoMap.get fs' k = GoMap.get fs k := by
    intro r r' b hp fs hfs
    unfold Repo.put at hp
    rw [hfs] at hp
    cases hp
    exact ⟨_, GoMap.get_set_self _ _ _, GoMap.get_set_ne _ _ hne⟩
  have hstore : ∀ {b : Blame}, store hash st k' b = .ok st' → (∀ fs, GoMap.get st.1 hash = some fs → ∃ fs', GoMap.get st'.1 hash = some fs' ∧ GoMap.get fs' k = GoMap.get fs k) ∧ GoMap.get st'.2 k = GoMap.get st.2 k := by
    intro b hs
    unfold store at hs
    obtain ⟨r, hr, hs⟩ := bind_ok hs
    cases hs
    exact ⟨hput hr, GoMap.get_set_ne _ _ hne⟩
  unfold mergeFile at h
  simp only at h
  split at h
  · rename_i hisdel
    split at h
    · cases h
    · rename_i hlen
      cases h
      refine ⟨fun fs hfs => ⟨fs, hfs, rfl⟩, GoMap.get_set_ne _ _ ?_⟩
      cases hg : GoMap.get D k' with
      | none => exact absurd hk' ((GoMap.get_eq_none_iff _ _).1 hg)
      | some v =>
        obtain ⟨d, rfl, hkey, hread⟩ := hD _ _ hg
        have hp : d.path = [] := by simpa [isDelete, hg] using hisdel
        rw [← hkey]
        have : mergeKey d = deletedPrefix ++ d.pathPrev := by simp [mergeKey, hp]
        rw [this, List.drop_left]
        exact hdel d hread hp
  · obtain ⟨bp, _, h⟩ := bind_ok h
    split at h
    · exact hstore h
    · obtain ⟨same, _, h⟩ := bind_ok h
      split at h
      · obtain ⟨r, hr, h⟩ := bind_ok h
        cases h
        exact ⟨hput hr, rfl⟩
      · obtain ⟨pbs, _, h⟩ := bind_ok h
        obtain ⟨bl, _, h⟩ := bind_ok h
        exact hstore h

/-- The whole of `processMergeCommit` for path `k`. -/
theorem merge_first {env : Env} (horder : ∀ n k l, (env.order n k l).Perm l) {n : Nat} {repo r : Repo} {hash p1 k : Str} {rest : List Str}
    {parts : GoMap Str LogCommit} {res : Result} (hparts : ∀ q ∈ GoMap.keys parts, q ∉ p1 :: rest) (hne : hash ∉ p1 :: rest) (hrest : rest ≠ [])
    (hpl : PlainChange repo parts p1 k) (h : processMergeCommit env n repo hash (p1 :: rest) parts = .ok (r, res)) :
    ∃ b, firstStored repo k rest = some b ∧ (∃ fs, GoMap.get r hash = some fs ∧ GoMap.get fs k = some b) ∧ GoMap.get res.files k = none := by
  unfold processMergeCommit at h
  obtain ⟨D, hD, h⟩ := bind_ok h
  obtain ⟨st, hst, h⟩ := bind_ok h
  obtain ⟨files, hf, h⟩ := bind_ok h
  obtain ⟨r1, hr1, h⟩ := bind_ok h
  cases h
  obtain ⟨f1, _, f3⟩ := addParts_first _ _ _ (fun q hq => hparts q ((horder _ _ _).mem_iff.1 hq)) hD (by intro k v hk; simp at hk)
  have hk : k ∈ GoMap.keys D := by
    obtain ⟨d, ⟨q, e, he, ch, hch, hd⟩, hdk⟩ := hpl.any
    have hq : q ∈ GoMap.keys parts := (GoMap.get_isSome_iff _ _).1 (by rw [he]; rfl)
    have := f3 q ((horder _ _ _).mem_iff.2 hq) e he ch hch d hd
    have hm : mergeKey d = k := by
      unfold mergeKey
      rw [hdk, if_pos hpl.path.1]
    rwa [hm] at this
  have hwf : (GoMap.keys D).Nodup := addParts_wf _ hD GoMap.wf_nil
  -- split the order at k
  have hmem : k ∈ env.order n 1 (GoMap.keys D) := (horder _ _ _).mem_iff.2 hk
  have hnd : (env.order n 1 (GoMap.keys D)).Nodup := (horder _ _ _).nodup_iff.2 hwf
  have hin : ∀ x ∈ env.order n 1 (GoMap.keys D), x ∈ GoMap.keys D := fun x hx => (horder _ _ _).mem_iff.1 hx
  obtain ⟨l1, l2, hl⟩ := List.append_of_mem hmem
  rw [hl] at hst hnd hin
  rw [List.foldlM_append] at hst
  obtain ⟨s1, hs1, hst⟩ := bind_ok hst
  rw [List.foldlM_cons] at hst
  obtain ⟨s2, hs2, hst⟩ := bind_ok hst
  have hl1 : k ∉ l1 := by
    intro hc
    exact (List.nodup_append.1 hnd).2.2 k hc k List.mem_cons_self rfl
  have hl2 : k ∉ l2 := by
    intro hc
    exact (List.nodup_cons.1 (List.nodup_append.1 hnd).2.1).1 hc
  have others : ∀ (l : List Str) (s s' : Repo × Files), k ∉ l → (∀ x ∈ l, x ∈ GoMap.keys D) → l.foldlM (mergeFile env hash (p1 :: rest) D) s = .ok s' →
      (∀ fs, GoMap.get s.1 hash = some fs → ∃ fs', GoMap.get s'.1 hash = some fs' ∧ GoMap.get fs' k = GoMap.get fs k) ∧ GoMap.get s'.2 k = GoMap.get s.2 k := by
    intro l
    induction l with
    | nil => intro s s' _ _ h; cases h; exact ⟨fun fs hfs => ⟨fs, hfs, rfl⟩, rfl⟩
    | cons x l ih =>
      intro s s' hkl hin h
      rw [List.foldlM_cons] at h
      obtain ⟨t, h1, h2⟩ := bind_ok h
      obtain ⟨a1, a2⟩ := mergeFile_other f1 (hin x List.mem_cons_self) hpl.kept (fun he => hkl (he ▸ List.mem_cons_self)) h1
      obtain ⟨b1, b2⟩ := ih t s' (fun hc => hkl (List.mem_cons_of_mem _ hc)) (fun y hy => hin y (List.mem_cons_of_mem _ hy)) h2
      refine ⟨?_, b2.trans a2⟩
      intro fs hfs
      obtain ⟨fs1, c1, c2⟩ := a1 fs hfs
      obtain ⟨fs2, d1, d2⟩ := b1 fs1 c1
      exact ⟨fs2, d1, d2.trans c2⟩
  obtain ⟨o1, o2⟩ := others l1 _ _ hl1 (fun x hx => hin x (by simp [hx])) hs1
  obtain ⟨q1, q2⟩ := others l2 _ _ hl2 (fun x hx => hin x (by simp [hx])) hst
  have hsame : SameBut hash repo s1.1 := SameBut.trans (sameBut_set _ _ _)
    (foldlM_keeps (α := Repo × Files) (P := fun a b => SameBut hash a.1 b.1) (fun a => sameBut_refl _ _) (fun a b c h1 h2 => SameBut.trans (b := b.1) h1 h2)
      (fun _ _ _ h => mergeFile_same h) _ _ _ hs1)
  rcases mergeFile_first f1 hk hpl hsame hne hs2 with ⟨b, hb, hput, hres⟩ | ⟨_, hr⟩
  · refine ⟨b, hb, ?_, ?_⟩
    · obtain ⟨fs1, c1, _⟩ := o1 [] (GoMap.get_set_self _ _ _)
      unfold Repo.put at hput
      rw [c1] at hput
      have hput' := Except.ok.inj hput
      obtain ⟨fs2, d1, d2⟩ := q1 (GoMap.set fs1 k b) (by rw [← hput']; exact GoMap.get_set_self _ _ _)
      rw [GoMap.get_set_self] at d2
      -- the last loop
      have last : ∀ (l : List Str) (s s' : Repo), l.foldlM (mergeUnchanged hash (p1 :: rest)) s = .ok s' → (∃ fs, GoMap.get s hash = some fs ∧ GoMap.get fs k = some b) →
          ∃ fs, GoMap.get s' hash = some fs ∧ GoMap.get fs k = some b := by
        intro l
        induction l with
        | nil => intro s s' h h0; cases h; exact h0
        | cons x l ih =>
          intro s s' h h0
          rw [List.foldlM_cons] at h
          obtain ⟨t, h1, h2⟩ := bind_ok h
          refine ih t s' h2 ?_
          obtain ⟨fs, e1, e2⟩ := h0
          unfold mergeUnchanged at h1
          obtain ⟨bl, hbl, h1⟩ := bind_ok h1
          split at h1
          · cases h1; exact ⟨fs, e1, e2⟩
          · obtain ⟨cs, _, h1⟩ := bind_ok h1
            split at h1
            · cases h1
            · unfold Repo.getFileOptional at hbl
              unfold Repo.put at h1
              rw [e1] at hbl h1
              cases h1
              refine ⟨_, GoMap.get_set_self _ _ _, ?_⟩
              by_cases hx : x = k
              · subst hx
                simp only [e2] at hbl
                cases hbl
              · rw [GoMap.get_set_ne _ _ hx]; exact e2
      exact last _ _ _ hr1 ⟨fs2, d1, d2⟩
    · rw [q2, hres, o2]; rfl
  · exact absurd hr hrest

end Ripsrc
