import Verif.Props.TimeOnly
/-!
# C47: branches whose names contain the separator
-/
namespace Ripsrc
open Spec

/-! ### No date contains `@` -/

theorem at_two (n : Nat) : (64 : UInt8) ∉ two n := by
  intro h
  unfold two at h
  have hd : ∀ k, (64 : UInt8) ∉ itoa k := fun k hk => by
    have := itoa_digits k 64 hk
    revert this
    decide
  split at h
  · rcases List.mem_cons.1 h with h | h
    · cases h
    · exact hd _ h
  · exact hd _ h

theorem getnum_at {s r : Str} {n : Nat} {fixed : Bool} (h : getnum s fixed = some (n, r)) (hs : (64 : UInt8) ∈ s) : (64 : UInt8) ∈ r := by
  unfold getnum at h
  cases s with
  | nil => cases h
  | cons a s =>
    simp only at h
    cases ha : digitVal a with
    | none => rw [ha] at h; cases h
    | some x =>
      rw [ha] at h
      have hs' : (64 : UInt8) ∈ s := by
        rcases List.mem_cons.1 hs with rfl | hs
        · cases ha
        · exact hs
      cases s with
      | nil => cases hs'
      | cons b s =>
        simp only at h
        cases hb : digitVal b with
        | none =>
          rw [hb] at h
          simp only at h
          split at h
          · cases h
          · cases h; exact hs'
        | some y =>
          rw [hb] at h
          cases h
          rcases List.mem_cons.1 hs' with rfl | hs'
          · cases hb
          · exact hs'

theorem ranged_at {lo hi n : Nat} {s r : Str} {fixed : Bool} (h : ranged lo hi (getnum s fixed) = some (n, r)) (hs : (64 : UInt8) ∈ s) : (64 : UInt8) ∈ r :=
  getnum_at (ranged_inv h).1 hs

theorem skipByte_at {c : UInt8} (hc : c ≠ 64) {s r : Str} (h : skipByte c s = some r) (hs : (64 : UInt8) ∈ s) : (64 : UInt8) ∈ r := by
  rw [skipByte_inv h] at hs
  rcases List.mem_cons.1 hs with h' | h'
  · exact absurd h'.symm hc
  · exact h'

theorem dropWhile_at (p : UInt8 → Bool) (hp : p 64 = false) {s : Str} (hs : (64 : UInt8) ∈ s) : (64 : UInt8) ∈ s.dropWhile p := by
  induction s with
  | nil => cases hs
  | cons b s ih =>
    rw [List.dropWhile_cons]
    split
    · next hb =>
      rcases List.mem_cons.1 hs with rfl | hs
      · rw [hp] at hb; cases hb
      · exact ih hs
    · exact hs

theorem skipSpace_at {s r : Str} (h : skipSpace s = some r) (hs : (64 : UInt8) ∈ s) : (64 : UInt8) ∈ r := by
  unfold skipSpace at h
  cases s with
  | nil => cases hs
  | cons b s =>
    simp only at h
    split at h
    · cases h; exact dropWhile_at _ (by decide) hs
    · cases h

theorem lookupName_at {i n : Nat} {ns : List Str} (hns : ∀ m ∈ ns, (64 : UInt8) ∉ m.map lowerByte) {s r : Str} (h : lookupName i ns s = some (n, r)) (hs : (64 : UInt8) ∈ s) : (64 : UInt8) ∈ r := by
  induction ns generalizing i with
  | nil => cases h
  | cons a ns ih =>
    unfold lookupName at h
    split at h
    · next ha =>
      cases h
      rw [← List.take_append_drop a.length s] at hs
      rcases List.mem_append.1 hs with h' | h'
      · have : (64 : UInt8) ∈ (s.take a.length).map lowerByte := List.mem_map.2 ⟨64, h', by decide⟩
        rw [ha.2] at this
        exact absurd this (hns a (by simp))
      · exact h'
    · exact ih (fun m hm => hns m (by simp [hm])) h

theorem getYear_at {s r : Str} {y : Nat} (h : getYear s = some (y, r)) (hs : (64 : UInt8) ∈ s) : (64 : UInt8) ∈ r := by
  rw [(getYear_inv h).2] at hs
  rcases List.mem_append.1 hs with h' | h'
  · rcases List.mem_append.1 h' with h' | h'
    · exact absurd h' (at_two _)
    · exact absurd h' (at_two _)
  · exact h'

theorem getSeconds_at {pkg : TimePkg} {s r : Str} {sec ns : Nat} (h : getSeconds pkg s = some (sec, ns, r)) (hs : (64 : UInt8) ∈ s) : (64 : UInt8) ∈ r := by
  unfold getSeconds at h
  cases hg : ranged 0 59 (getnum s true) with
  | none => rw [hg] at h; cases h
  | some x =>
    obtain ⟨n, q⟩ := x
    have hq := ranged_at hg hs
    rw [hg] at h
    cases q with
    | nil => cases hq
    | cons c q =>
      simp only at h
      split at h
      · next hc =>
        split at h
        · cases h
        · cases h
          rcases List.mem_cons.1 hq with h' | h'
          · subst h'
            rcases hc.1 with hc | ⟨_, hc⟩ <;> cases hc
          · exact dropWhile_at _ (by decide) h'
      · cases h; exact hq

theorem zoneNum_at {pkg : TimePkg} {m : Nat} {a b : UInt8} {n : Int} (h : zoneNum pkg m [a, b] = some n) : a ≠ 64 ∧ b ≠ 64 := by
  unfold zoneNum at h
  split at h
  · cases hp : parseDigits 0 [a, b] with
    | none => rw [hp] at h; cases h
    | some k =>
      constructor
      · rintro rfl
        simp [parseDigits, show digitVal 64 = none from rfl] at hp
      · rintro rfl
        simp only [parseDigits, show digitVal 64 = none from rfl] at hp
        split at hp <;> cases hp
  · have key : ∀ x y : UInt8, (x = 64 ∨ y = 64) → atoi [x, y] = none := by
      intro x y hxy
      have h1 : ∀ y : UInt8, atoi [64, y] = none := byte_cases (by decide +kernel)
      have h2 : ∀ x : UInt8, atoi [x, 64] = none := byte_cases (by decide +kernel)
      rcases hxy with rfl | rfl
      · exact h1 y
      · exact h2 x
    constructor
    · rintro rfl
      rw [key _ _ (Or.inl rfl)] at h
      cases h
    · rintro rfl
      rw [key _ _ (Or.inr rfl)] at h
      cases h

theorem getNumZone_at {pkg : TimePkg} {s r : Str} {o : Int} (h : getNumZone pkg s = some (o, r)) (hs : (64 : UInt8) ∈ s) : (64 : UInt8) ∈ r := by
  unfold getNumZone at h
  match s, h with
  | sign :: h1 :: h2 :: m1 :: m2 :: rest, h =>
    simp only at h
    rw [Option.map_eq_some_iff] at h
    obtain ⟨o', h, e⟩ := h
    cases e
    unfold zoneOffset at h
    cases hh : zoneNum pkg 24 [h1, h2] with
    | none => rw [hh] at h; simp at h
    | some x =>
      cases hm : zoneNum pkg 60 [m1, m2] with
      | none => rw [hh, hm] at h; simp at h
      | some y =>
        rw [hh, hm] at h
        simp only at h
        obtain ⟨a1, a2⟩ := zoneNum_at hh
        obtain ⟨b1, b2⟩ := zoneNum_at hm
        have hsign : sign ≠ 64 := by
          rintro rfl
          simp at h
        simp only [List.mem_cons] at hs
        rcases hs with e | e | e | e | e | e
        · exact absurd e.symm hsign
        · exact absurd e.symm a1
        · exact absurd e.symm a2
        · exact absurd e.symm b1
        · exact absurd e.symm b2
        · exact e

/-- **C77 (only dates).** No text that contains an `@` is read as the date of a branch. -/
theorem C77_no_at (pkg : TimePkg) (s : Str) (hs : (64 : UInt8) ∈ s) : parseGitTime pkg s = none := by
  cases h : parseGitTime pkg s with
  | none => rfl
  | some t =>
    unfold parseGitTime at h
    simp only [bind, Option.bind_eq_some_iff] at h
    obtain ⟨⟨_, s1⟩, h1, s2, h2, ⟨m, s3⟩, h3, s4, h4, ⟨d, s5⟩, h5, s6, h6, ⟨hh, s7⟩, h7, s8, h8, ⟨mi, s9⟩, h9, s10, h10, ⟨sec, ns, s11⟩, h11, s12, h12, ⟨y, s13⟩, h13, s14, h14, ⟨off, s15⟩, h15, h16⟩ := h
    have k := getNumZone_at h15 (skipSpace_at h14 (getYear_at h13 (skipSpace_at h12 (getSeconds_at h11 (skipByte_at (by decide) h10 (ranged_at h9 (skipByte_at (by decide) h8
      (ranged_at h7 (skipSpace_at h6 (getnum_at h5 (skipSpace_at h4 (lookupName_at (by decide) h3 (skipSpace_at h2 (lookupName_at (by decide) h1 hs))))))))))))))
    unfold finishTime at h16
    split at h16
    · cases h16
    · next hr =>
      have hr' : s15 = [] := Classical.not_not.1 hr
      rw [hr'] at k
      cases k

/-! ### The separator -/

/-- If the separator begins inside the name, it is found there, and the rest contains an `@` that is not part of the date. -/
theorem cut_inside (name date : Str) (h : ¬ FirstAt b!"@@@" name) : ∃ x z, cut b!"@@@" (name ++ (b!"@@@" ++ date)) = some (x, z ++ date) ∧ (64 : UInt8) ∈ z := by
  induction name with
  | nil => exact absurd (fun i hi => absurd hi (Nat.not_lt_zero _)) h
  | cons b r ih =>
    rw [List.cons_append, cut]
    split
    · refine ⟨[], (b :: r ++ [64, 64]).drop 3 ++ [64], ?_, by simp⟩
      have e : b :: (r ++ (b!"@@@" ++ date)) = (b :: r ++ [64, 64]) ++ (64 :: date) := by simp [show b!"@@@" = [64, 64, 64] from rfl]
      rw [e, show (b!"@@@").length = 3 from rfl, List.drop_append_of_le_length (by simp)]
      simp
    · next hs =>
      have hr : ¬ FirstAt b!"@@@" r := by
        intro hr
        apply h
        intro i hi hp
        cases i with
        | zero =>
          apply hs
          rw [List.drop_zero] at hp
          rw [startsWith_iff]
          obtain ⟨w, hw⟩ := hp.trans ⟨date, show b :: r ++ b!"@@@" ++ date = b :: (r ++ (b!"@@@" ++ date)) by simp⟩
          exact ⟨w, hw.symm⟩
        | succ i => exact hr i (by simpa using hi) (by simpa using hp)
      obtain ⟨x, z, h1, h2⟩ := ih hr
      exact ⟨b :: x, z, by rw [h1]; rfl, h2⟩

/-- **C47 (names with the separator).** A branch whose name contains `@@@` or ends in `@` (both are valid names in git) is split at the wrong place, whatever its commit and date: the listing panics, and with
it the program, if the entries before it can be read. -/
theorem C47_at_name_panics (pkg : TimePkg) (opts : BranchOpts) (d : Str) (rs : List (RefEntry × GoTime)) (bad : RefEntry) (rest : List RefEntry) (hd : d ≠ [] ∧ Trimmed d)
    (h : ∀ r ∈ rs, r.1.Ok ∧ parseGitTime pkg r.1.date = some r.2 ∧ (opts.useOrigin = true → ∃ n, r.1.name = b!"origin/" ++ n))
    (hcommit : bad.commit ≠ [] ∧ ∀ b ∈ bad.commit, (48 ≤ b ∧ b ≤ 57) ∨ (97 ≤ b ∧ b ≤ 102)) (hname : NoNL bad.name) (hdate : NoNL bad.date ∧ ∃ s c, bad.date = s ++ [c] ∧ 48 ≤ c ∧ c ≤ 57)
    (hbad : b!"@@@" <:+: bad.name ∨ b!"@" <:+ bad.name) (hrest : ∀ r ∈ rest, NoNL r.line) (res : Go (List (BranchTime GoTime))) :
    BranchGet (parseGitTime pkg) opts (d ++ [10]) (refText (rs.map Prod.fst ++ bad :: rest)) res ↔ res = .error (.panic "invalid date format") := by
  have hnf : ¬ FirstAt b!"@@@" bad.name := by
    intro hf
    rcases hbad with ⟨a, b, e⟩ | ⟨a, e⟩
    · refine hf a.length ?_ ?_
      · rw [← e]; simp [show (b!"@@@").length = 3 from rfl]
      · rw [← e]; simp [List.append_assoc]
    · refine hf a.length ?_ ?_
      · rw [← e]; simp [show (b!"@").length = 1 from rfl]
      · rw [← e, List.append_assoc, List.drop_left]
        decide
  obtain ⟨x, z, hz, hat⟩ := cut_inside bad.name bad.date hnf
  have hline : branchLine (parseGitTime pkg) opts d bad.line = .error (.panic "invalid date format") := by
    obtain ⟨c, t', hl, hc, htrim⟩ := ref_line_shape0 hcommit hdate.2
    have h1 : cut b!"@@@" bad.line = some (bad.commit, bad.name ++ (b!"@@@" ++ bad.date)) :=
      cut_append _ _ _ (firstAt_of_not_mem (c := 64) rfl (fun hc => (hex_not_space 64 (hcommit.2 64 hc)).2.2.1 rfl))
    unfold branchLine
    rw [hl] at h1 htrim ⊢
    rw [htrim]
    simp only [hc, if_false, h1, hz, C77_no_at pkg (z ++ bad.date) (by simp [hat])]
  have hloop : ∀ (rs : List (RefEntry × GoTime)) (tl : List Str), (∀ r ∈ rs, r.1.Ok ∧ parseGitTime pkg r.1.date = some r.2 ∧
      (opts.useOrigin = true → ∃ n, r.1.name = b!"origin/" ++ n)) →
      branchLoop (parseGitTime pkg) opts d (rs.map (fun r => r.1.line) ++ bad.line :: tl) = .error (.panic "invalid date format") := by
    intro rs tl
    induction rs with
    | nil =>
      intro _
      simp only [List.map_nil, List.nil_append, branchLoop, hline]
      rfl
    | cons r rs ih =>
      intro h
      obtain ⟨a, b, c⟩ := h r (by simp)
      simp only [List.map_cons, List.cons_append, branchLoop]
      rw [branchLine_ref (parseGitTime pkg) opts d r.1 _ a b c, ih (fun x hx => h x (by simp [hx]))]
      rfl
  have hun : branchGetUnsorted (parseGitTime pkg) opts (d ++ [10]) (refText (rs.map Prod.fst ++ bad :: rest)) = .error (.panic "invalid date format") := by
    unfold branchGetUnsorted getDefaultBranch
    rw [trimSpace_line hd.2]
    simp only [if_neg hd.1, bind, Except.bind]
    unfold refText
    rw [splitByte_unlines _ (by
      intro l hl
      obtain ⟨r, hr, rfl⟩ := List.mem_map.1 hl
      rcases List.mem_append.1 hr with hr | hr
      · obtain ⟨x, hx, rfl⟩ := List.mem_map.1 hr
        exact ref_line_noNL (h x hx).1
      · rcases List.mem_cons.1 hr with rfl | hr
        · have h1 : NoNL r.commit := fun hc => (hex_not_space 10 (hcommit.2 10 hc)).2.2.2 rfl
          have h3 := hdate.1
          simp only [NoNL, RefEntry.line, List.mem_append, not_or] at *
          exact ⟨h1, by decide, hname, by decide, h3⟩
        · exact hrest r hr)]
    rw [List.map_append, List.map_cons, List.map_map, List.append_assoc, List.cons_append]
    exact hloop rs _ h
  unfold BranchGet
  rw [hun]

/-- `a` can be read, `b@` cannot. -/
example (pkg : TimePkg) (res : Go (List (BranchTime GoTime))) : BranchGet (parseGitTime pkg) { useOrigin := false, includeDefault := false } b!"master\n"
      (refText [exRef b!"a" b!"Tue Nov 27 21:55:36 2018 +0100", exRef b!"b@" b!"Tue Nov 27 21:55:36 2018 +0100", exRef b!"c" b!"Tue Nov 27 21:55:36 2018 +0100"]) res ↔
    res = .error (.panic "invalid date format") :=
  C47_at_name_panics pkg { useOrigin := false, includeDefault := false } b!"master"
    [(exRef b!"a" b!"Tue Nov 27 21:55:36 2018 +0100", { unix := 1543352136, nsec := 0, offset := 3600 })] (exRef b!"b@" b!"Tue Nov 27 21:55:36 2018 +0100")
    [exRef b!"c" b!"Tue Nov 27 21:55:36 2018 +0100"] (by decide)
    (by
      intro r hr
      simp only [List.mem_singleton] at hr
      subst hr
      exact ⟨exRef_ok exGit ⟨by decide, by unfold FirstAt; decide⟩,
        exGit ▸ C77_branch_date pkg 1543352136 exZone (exZone_fits pkg) 1543355736 (by decide) (by rw [show 1543355736 / 86400 = 17862 from rfl, civil_2018]; decide), by simp⟩)
    (by decide) (by decide) ⟨by decide, b!"Tue Nov 27 21:55:36 2018 +010", 48, by decide⟩ (Or.inr ⟨b!"b", rfl⟩) (by decide) res

end Ripsrc
