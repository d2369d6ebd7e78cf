import Verif.Spec.FileInfo
/-!
# C45, C46: the file filter
-/
namespace Ripsrc
open Spec

theorem licenseTail_iff (s : Str) : licenseTail s = true ↔
    (∃ w e, s = w ++ e ∧ w ∈ licenseWords ∧ e ∈ licenseExts) ∨ (∃ rest, s = b!"LICENSE-" ++ rest ∧ (10 : UInt8) ∉ rest) := by
  simp only [licenseTail, Bool.or_eq_true, List.any_eq_true, Bool.and_eq_true, Bool.not_eq_true', beq_iff_eq]
  constructor
  · rintro (⟨w, hw, e, he, h⟩ | ⟨h1, h2⟩)
    · exact Or.inl ⟨w, e, h, hw, he⟩
    · obtain ⟨r, rfl⟩ := startsWith_iff.1 h1
      refine Or.inr ⟨r, rfl, ?_⟩
      have : (b!"LICENSE-" ++ r).drop 8 = r := rfl
      rw [this] at h2
      simpa using h2
  · rintro (⟨w, e, h, hw, he⟩ | ⟨r, rfl, h2⟩)
    · exact Or.inl ⟨w, hw, e, he, h⟩
    · refine Or.inr ⟨startsWith_append _ _, ?_⟩
      have : (b!"LICENSE-" ++ r).drop 8 = r := rfl
      rw [this]
      simpa using h2

theorem possibleLicense_tail (p : Str) : possibleLicense p = true ↔ ∃ pre s, p = pre ++ s ∧ licenseTail s = true := by
  induction p with
  | nil =>
    simp only [possibleLicense]
    constructor
    · intro h; exact ⟨[], [], rfl, h⟩
    · rintro ⟨pre, s, h, hs⟩
      have := List.append_eq_nil_iff.1 h.symm
      rw [this.2] at hs; exact hs
  | cons b p ih =>
    simp only [possibleLicense, Bool.or_eq_true, ih]
    constructor
    · rintro (h | ⟨pre, s, rfl, h⟩)
      · exact ⟨[], _, rfl, h⟩
      · exact ⟨b :: pre, s, rfl, h⟩
    · rintro ⟨pre, s, h, hs⟩
      cases pre with
      | nil => rw [List.nil_append] at h; subst h; exact Or.inl hs
      | cons c pre =>
        injection h with h1 h2
        exact Or.inr ⟨pre, s, h2, hs⟩

theorem possibleLicense_iff (p : Str) : possibleLicense p = true ↔ LicenseName p := by
  rw [possibleLicense_tail]
  constructor
  · rintro ⟨pre, s, rfl, hs⟩
    rcases (licenseTail_iff s).1 hs with ⟨w, e, rfl, hw, he⟩ | ⟨r, rfl, hr⟩
    · exact Or.inl ⟨pre, w, e, rfl, hw, he⟩
    · exact Or.inr ⟨pre, r, rfl, hr⟩
  · rintro (⟨pre, w, e, rfl, hw, he⟩ | ⟨pre, r, rfl, hr⟩)
    · exact ⟨pre, _, rfl, (licenseTail_iff _).2 (Or.inl ⟨w, e, rfl, hw, he⟩)⟩
    · exact ⟨pre, _, rfl, (licenseTail_iff _).2 (Or.inr ⟨r, rfl, hr⟩)⟩

/-- What the licence detection can answer. -/
theorem detect_spec {cl : Classifier} (hl : Lawful cl) (path content : Str) :
    (∃ why, detectLicense cl path content = .error why ∧ cl.licenseDb path content = .failed) ∨
    (detectLicense cl path content = .ok none ∧ cl.licenseDb path content ≠ .failed ∧ ¬ Licensed cl path content) ∨
    (∃ kv l, detectLicense cl path content = .ok (some l) ∧ cl.licenseDb path content = .found kv ∧ (l.name, l.confidence) ∈ kv ∧
      cl.minConfidence ≤ l.confidence ∧ ∀ e ∈ kv, e.2 ≤ l.confidence) := by
  unfold detectLicense
  cases hdb : cl.licenseDb path content with
  | failed => exact Or.inl ⟨_, rfl, rfl⟩
  | notFound => exact Or.inr (Or.inl ⟨rfl, by simp, by rintro ⟨kv, h, _⟩; rw [hdb] at h; cases h⟩)
  | found kv =>
    refine Or.inr ?_
    simp only
    split
    · have hs := hl.sort ((cl.mapOrder kv).map (fun e => (⟨e.1, e.2⟩ : License)))
      have hmem : ∀ e, e ∈ kv ↔ (⟨e.1, e.2⟩ : License) ∈ cl.sortMatches ((cl.mapOrder kv).map (fun e => (⟨e.1, e.2⟩ : License))) := by
        intro e
        rw [hs.1.mem_iff, List.mem_map]
        constructor
        · intro h; exact ⟨e, (hl.order kv).mem_iff.2 h, rfl⟩
        · rintro ⟨e', h, he⟩
          injection he with h1 h2
          have : e' = e := Prod.ext h1 h2
          rw [← this]; exact (hl.order kv).mem_iff.1 h
      generalize cl.sortMatches ((cl.mapOrder kv).map (fun e => (⟨e.1, e.2⟩ : License))) = ms at hs hmem
      cases ms with
      | nil =>
        refine Or.inl ⟨rfl, by simp, ?_⟩
        rintro ⟨kv', h, e, he, _⟩
        rw [hdb] at h; injection h with h; subst h
        have := (hmem e).1 he
        simp at this
      | cons m ms =>
        have hmax : ∀ e ∈ kv, e.2 ≤ m.confidence := by
          intro e he
          rcases List.mem_cons.1 ((hmem e).1 he) with h | h
          · rw [← h]; exact Nat.le_refl _
          · exact (List.pairwise_cons.1 hs.2).1 _ h
        simp only
        split
        · rename_i hge
          exact Or.inr ⟨kv, m, rfl, rfl, (hmem (m.name, m.confidence)).2 (by simp), hge, hmax⟩
        · rename_i hge
          refine Or.inl ⟨rfl, by simp, ?_⟩
          rintro ⟨kv', h, e, he, hce⟩
          rw [hdb] at h; injection h with h; subst h
          have := hmax e he
          omega
    · rename_i h0
      have : kv = [] := by cases kv with
        | nil => rfl
        | cons a b => simp at h0
      subst this
      refine Or.inl ⟨rfl, by simp, ?_⟩
      rintro ⟨kv', h, e, he, _⟩
      rw [hdb] at h; injection h with h; subst h; cases he

/-- **C45 (licences).** A licence that is found is one of the most confident matches, and confident enough. -/
theorem C45_license {cl : Classifier} (hl : Lawful cl) {path content : Str} {l : License} (h : detectLicense cl path content = .ok (some l)) :
    ∃ kv, cl.licenseDb path content = .found kv ∧ (l.name, l.confidence) ∈ kv ∧ cl.minConfidence ≤ l.confidence ∧ ∀ e ∈ kv, e.2 ≤ l.confidence := by
  rcases detect_spec hl path content with ⟨w, h1, _⟩ | ⟨h1, _, _⟩ | ⟨kv, l', h1, h2, h3, h4, h5⟩
  · rw [h1] at h; cases h
  · rw [h1] at h; cases h
  · rw [h1] at h; injection h with h; injection h with h; subst h
    exact ⟨kv, h2, h3, h4, h5⟩

theorem longLine_none {ls : List Str} : longLine ls = none ↔ ∀ l ∈ ls, l.length ≤ 1096 := by
  induction ls with
  | nil => simp [longLine]
  | cons l ls ih =>
    simp only [longLine, maxBytesPerLine]
    by_cases hl : l.length > 1096 <;> simp only [hl, if_true, if_false]
    · simp only [reduceCtorEq, false_iff]; intro h; have := h l (by simp); omega
    · rw [ih]; simp only [List.mem_cons, forall_eq_or_imp]; constructor
      · intro h; exact ⟨by omega, h⟩
      · exact fun h => h.2

theorem longLine_some {ls : List Str} {n : Nat} (h : longLine ls = some n) :
    ∃ before l after, ls = before ++ l :: after ∧ (∀ x ∈ before, x.length ≤ 1096) ∧ 1096 < l.length ∧ n = l.length := by
  induction ls with
  | nil => cases h
  | cons l ls ih =>
    simp only [longLine, maxBytesPerLine] at h
    by_cases hgt : l.length > 1096 <;> simp only [hgt, if_true, if_false] at h
    · injection h with h
      exact ⟨[], l, ls, rfl, by simp, hgt, h.symm⟩
    · obtain ⟨b, x, a, rfl, hb, hx, hn⟩ := ih h
      refine ⟨l :: b, x, a, rfl, ?_, hx, hn⟩
      intro y hy
      rcases List.mem_cons.1 hy with rfl | hy
      · omega
      · exact hb y hy

theorem vendored_iff (cl : Classifier) (p : Str) : isVendored cl p = true ↔ cl.isVendor p = true ∧ ¬ ∃ rest, p = b!"src/" ++ rest := by
  unfold isVendored
  rw [← startsWith_iff]
  cases cl.isVendor p <;> cases startsWith p b!"src/" <;> simp

/-- A consistent cache: every entry is the answer of the uncached function. -/
def CacheOk (cl : Classifier) (cache : GoMap Str Str) : Prop := ∀ p r, GoMap.get cache p = some r → r = checkFilePathUncached cl p

theorem checkFilePath_ok {cl : Classifier} {cache : GoMap Str Str} (h : CacheOk cl cache) (p : Str) :
    (checkFilePath cl cache p).1 = checkFilePathUncached cl p ∧ CacheOk cl (checkFilePath cl cache p).2 := by
  unfold checkFilePath
  cases hg : GoMap.get cache p with
  | some r => exact ⟨h p r hg, h⟩
  | none =>
    refine ⟨rfl, ?_⟩
    intro q r hq
    simp only [GoMap.get_set] at hq
    split at hq
    · rename_i he; subst he; injection hq with hq; exact hq.symm
    · exact h q r hq

/-- The answer of `GetInfo` with an empty cache. -/
def getInfoFresh (cl : Classifier) (a : InfoArgs) : Go (Info × Str) := do
  let (r, _) ← getInfo cl [] a
  return r

theorem getInfo_cache {cl : Classifier} {cache : GoMap Str Str} (h : CacheOk cl cache) (a : InfoArgs) :
    (∃ why, getInfo cl cache a = .error why ∧ getInfoFresh cl a = .error why) ∨
    (∃ r cache', getInfo cl cache a = .ok (r, cache') ∧ getInfoFresh cl a = .ok r ∧ CacheOk cl cache') := by
  unfold getInfoFresh getInfo
  simp only
  split
  · exact Or.inr ⟨_, _, rfl, rfl, h⟩
  · generalize licenseOf cl a = lic
    cases lic with
    | error w => exact Or.inl ⟨w, rfl, rfl⟩
    | ok lic =>
      cases lic with
      | some l => exact Or.inr ⟨_, _, rfl, rfl, h⟩
      | none =>
        have h0 : CacheOk cl [] := by intro p r hp; cases hp
        have h1 := checkFilePath_ok h a.path
        have h2 := checkFilePath_ok h0 a.path
        generalize hc1 : checkFilePath cl cache a.path = c1 at h1
        generalize hc2 : checkFilePath cl [] a.path = c2 at h2
        obtain ⟨s1, k1⟩ := c1
        obtain ⟨s2, k2⟩ := c2
        obtain ⟨h1a, h1b⟩ := h1
        obtain ⟨h2a, _⟩ := h2
        simp only at h1a h1b h2a
        subst h1a
        subst h2a
        right
        by_cases hs : checkFilePathUncached cl a.path = []
        · exact ⟨getInfoContent cl a, k1, by simp [bind, Except.bind, hs, hc1], by simp [bind, Except.bind, pure, Except.pure, hs, hc2], h1b⟩
        · exact ⟨({}, checkFilePathUncached cl a.path), k1, by simp [bind, Except.bind, hs, hc1], by simp [bind, Except.bind, pure, Except.pure, hs, hc2], h1b⟩

theorem getInfos_eq {cl : Classifier} (as : List InfoArgs) : ∀ {cache : GoMap Str Str}, CacheOk cl cache →
    getInfos cl cache as = as.mapM (getInfoFresh cl) := by
  induction as with
  | nil => intro cache _; rfl
  | cons a as ih =>
    intro cache h
    rw [List.mapM_cons]
    simp only [getInfos]
    rcases getInfo_cache h a with ⟨w, h1, h2⟩ | ⟨r, c', h1, h2, h3⟩
    · rw [h1, h2]; rfl
    · rw [h1, h2]
      simp only [bind, Except.bind]
      rw [ih h3]

/-- **C46.** The answers to a sequence of calls are the answers each call would get from a new `Process`: what was examined before is irrelevant.
(If the licence database fails the program panics at that call, in both cases.) -/
theorem C46_history_independent (cl : Classifier) (as : List InfoArgs) : getInfos cl [] as = as.mapM (getInfoFresh cl) :=
  getInfos_eq as (by intro p r hp; cases hp)

theorem mapM_get {α β : Type} {f : α → Go β} {as : List α} {out : List β} (h : as.mapM f = .ok out) {n : Nat} {a : α} {b : β} (ha : as[n]? = some a)
    (hb : out[n]? = some b) : f a = .ok b := by
  induction as generalizing n out with
  | nil => cases ha
  | cons x as ih =>
    rw [List.mapM_cons] at h
    cases hx : f x with
    | error w => rw [hx] at h; cases h
    | ok y =>
      rw [hx] at h
      simp only [bind, Except.bind] at h
      cases hm : List.mapM f as with
      | error w => rw [hm] at h; cases h
      | ok ys =>
        rw [hm] at h
        injection h with h
        subst h
        cases n with
        | zero => injection ha with ha; injection hb with hb; subst ha; subst hb; exact hx
        | succ n => exact ih hm ha hb

/-- **C46.** Each answer in a sequence of calls is the answer of a new `Process`. -/
theorem C46_answer {cl : Classifier} {as : List InfoArgs} {out : List (Info × Str)} (h : getInfos cl [] as = .ok out) {n : Nat} {a : InfoArgs} {b : Info × Str}
    (ha : as[n]? = some a) (hb : out[n]? = some b) : getInfoFresh cl a = .ok b :=
  mapM_get (by rw [← C46_history_independent]; exact h) ha hb

/-- The answer of a new process, by cases. -/
theorem getInfoFresh_spec {cl : Classifier} (hl : Lawful cl) (a : InfoArgs) {i : Info} {r : Str} (h : getInfoFresh cl a = .ok (i, r)) :
    FirstReason (checks cl a) r ∧
    ((r = b!"File is a license file" ∧ ∃ l, detectLicense cl a.path a.content = .ok (some l) ∧ i.license = some l)
      ∨ (r ≠ b!"File is a license file" ∧ i.license = none)) ∧
    (i.language = if r = [] then cl.language a.path a.content else []) := by
  unfold getInfoFresh getInfo at h
  simp only at h
  split at h
  · rename_i hsz
    simp only [bind, Except.bind, pure, Except.pure, Except.ok.injEq, Prod.mk.injEq] at h
    obtain ⟨rfl, rfl⟩ := h
    simp only [maxFileSize] at hsz
    refine ⟨Or.inl ⟨hsz, rfl⟩, Or.inr ⟨by simp, rfl⟩, ?_⟩
    simp
  · rename_i hsz
    simp only [maxFileSize] at hsz
    have hno : ∀ r', ¬ (1000000 < a.content.length ∧ r' = b!"File size was " ++ (itoa (a.content.length / 1000) ++ b!"K which exceeds limit of 1000K")) :=
      fun r' hc => hsz hc.1
    -- the licence
    have hlic : (∃ w, licenseOf cl a = .error w) ∨
      (licenseOf cl a = .ok none ∧ ¬ (LicenseName a.path ∧ Licensed cl a.path a.content)) ∨
      (∃ l, licenseOf cl a = .ok (some l) ∧ LicenseName a.path ∧ Licensed cl a.path a.content
        ∧ detectLicense cl a.path a.content = .ok (some l)) := by
      by_cases hp : possibleLicense a.path = true
      · simp only [licenseOf, hp, if_true]
        rcases detect_spec hl a.path a.content with ⟨w, h1, _⟩ | ⟨h1, _, h3⟩ | ⟨kv, l, h1, h2, h3, h4, h5⟩
        · rw [h1]; exact Or.inl ⟨_, rfl⟩
        · rw [h1]; exact Or.inr (Or.inl ⟨rfl, fun hc => h3 hc.2⟩)
        · rw [h1]; exact Or.inr (Or.inr ⟨l, rfl, (possibleLicense_iff _).1 hp, ⟨kv, h2, _, h3, h4⟩, rfl⟩)
      · refine Or.inr (Or.inl ⟨by simp [licenseOf, hp], fun hc => hp ((possibleLicense_iff _).2 hc.1)⟩)
    generalize licenseOf cl a = lic at h hlic
    rcases hlic with ⟨w, rfl⟩ | ⟨rfl, hnl⟩ | ⟨l, rfl, hn, hld, hdet⟩
    · cases h
    · have h0 : CacheOk cl [] := by intro p r hp; cases hp
      have h2 := (checkFilePath_ok h0 a.path).1
      generalize hc2 : checkFilePath cl [] a.path = c2 at h2
      obtain ⟨s2, k2⟩ := c2
      simp only at h2
      subst h2
      simp only [bind, Except.bind, pure, Except.pure, hc2] at h
      have hnolic : ∀ r' : Str, ¬ ((LicenseName a.path ∧ Licensed cl a.path a.content) ∧ r' = b!"File is a license file") := fun r' hc => hnl hc.1
      have hmain : FirstReason ((checks cl a).drop 2) r ∧ (r ≠ b!"File is a license file" ∧ i.license = none) ∧ (i.language = if r = [] then cl.language a.path a.content else []) := by
        simp only [checks, List.drop_succ_cons, List.drop_zero]
        simp only [checkFilePathUncached] at h
        by_cases hcfg : cl.isConfig a.path = true
        · simp [hcfg] at h; obtain ⟨rfl, rfl⟩ := h
          exact ⟨Or.inl ⟨hcfg, rfl⟩, ⟨by simp, rfl⟩, by simp⟩
        · simp only [hcfg, if_false] at h
          by_cases hdot : cl.isDot a.path = true
          · simp [hdot] at h; obtain ⟨rfl, rfl⟩ := h
            exact ⟨Or.inr ⟨fun _ hc => hcfg hc.1, Or.inl ⟨hdot, rfl⟩⟩, ⟨by simp, rfl⟩, by simp⟩
          · simp only [hdot, if_false] at h
            by_cases hig : cl.ignored a.path = true
            · simp [hig] at h; obtain ⟨rfl, rfl⟩ := h
              exact ⟨Or.inr ⟨fun _ hc => hcfg hc.1, Or.inr ⟨fun _ hc => hdot hc.1, Or.inl ⟨hig, rfl⟩⟩⟩, ⟨by simp, rfl⟩, by simp⟩
            · simp only [hig, if_false] at h
              by_cases hv : isVendored cl a.path = true
              · simp [hv] at h; obtain ⟨rfl, rfl⟩ := h
                exact ⟨Or.inr ⟨fun _ hc => hcfg hc.1, Or.inr ⟨fun _ hc => hdot hc.1, Or.inr ⟨fun _ hc => hig hc.1,
                  Or.inl ⟨(vendored_iff _ _).1 hv, rfl⟩⟩⟩⟩, ⟨by simp, rfl⟩, by simp⟩
              · have hvv : ∀ r' : Str, ¬ ((cl.isVendor a.path = true ∧ ¬ ∃ rest, a.path = b!"src/" ++ rest) ∧ r' = b!"File was a vendored file") :=
                  fun r' hc => hv ((vendored_iff _ _).2 hc.1)
                simp only [hv, ne_eq, not_true, if_false, Except.ok.injEq, getInfoContent, maxLinePerFile, Bool.false_eq_true] at h
                suffices hh : FirstReason ((checks cl a).drop 6) r ∧ (r ≠ b!"File is a license file" ∧ i.license = none) ∧ (i.language = if r = [] then cl.language a.path a.content else []) by
                  exact ⟨Or.inr ⟨fun _ hc => hcfg hc.1, Or.inr ⟨fun _ hc => hdot hc.1, Or.inr ⟨fun _ hc => hig hc.1, Or.inr ⟨hvv, hh.1⟩⟩⟩⟩, hh.2⟩
                simp only [checks, List.drop_succ_cons, List.drop_zero]
                by_cases hn : a.lines.length > 40000
                · simp [hn] at h; obtain ⟨rfl, rfl⟩ := h
                  exact ⟨Or.inl ⟨hn, rfl⟩, ⟨by simp, rfl⟩, by simp⟩
                · simp only [hn, if_false] at h
                  have hnn : ∀ r' : Str, ¬ (40000 < a.lines.length ∧ r' = b!"File has more than 40000 lines") := fun r' hc => hn hc.1
                  cases hll : longLine a.lines with
                  | some n =>
                    rw [hll] at h
                    simp only [Prod.mk.injEq] at h
                    obtain ⟨rfl, rfl⟩ := h
                    obtain ⟨b, x, af, e1, e2, e3, e4⟩ := longLine_some hll
                    subst e4
                    exact ⟨Or.inr ⟨hnn, Or.inl ⟨b, x, af, e1, e2, e3, rfl⟩⟩, ⟨by simp, rfl⟩, by simp⟩
                  | none =>
                    rw [hll] at h
                    simp only at h
                    have hw := longLine_none.1 hll
                    have hww : ∀ r' : Str, ¬ (∃ before l after, a.lines = before ++ l :: after ∧ (∀ x ∈ before, x.length ≤ 1096) ∧ 1096 < l.length ∧
                        r' = b!"File has a line width of " ++ (itoa l.length ++ b!" which is greater than max of 1096")) := by
                      rintro r' ⟨b, x, af, e1, _, e3, _⟩
                      have := hw x (by rw [e1]; simp)
                      omega
                    split at h
                    · rename_i hlang
                      simp only [Prod.mk.injEq] at h
                      obtain ⟨rfl, rfl⟩ := h
                      exact ⟨Or.inr ⟨hnn, Or.inr ⟨hww, Or.inl ⟨hlang, rfl⟩⟩⟩, ⟨by simp, rfl⟩, by simp⟩
                    · rename_i hlang
                      simp only [Prod.mk.injEq] at h
                      obtain ⟨rfl, rfl⟩ := h
                      exact ⟨Or.inr ⟨hnn, Or.inr ⟨hww, Or.inr ⟨fun _ hc => hlang hc.1, rfl⟩⟩⟩, ⟨by simp, rfl⟩, by simp⟩
      refine ⟨Or.inr ⟨hno, Or.inr ⟨hnolic, hmain.1⟩⟩, Or.inr hmain.2.1, hmain.2.2⟩
    · simp only [bind, Except.bind, pure, Except.pure, Except.ok.injEq, Prod.mk.injEq] at h
      obtain ⟨rfl, rfl⟩ := h
      exact ⟨Or.inr ⟨hno, Or.inl ⟨⟨hn, hld⟩, rfl⟩⟩, Or.inl ⟨rfl, l, hdet, rfl⟩, by simp⟩

/-- Two reasons of the same list of checks are equal if each check has only one text. -/
theorem FirstReason.unique {ps : List (Str → Prop)} (hu : ∀ p ∈ ps, ∀ r r', p r → p r' → r = r') {r r' : Str} (h : FirstReason ps r) (h' : FirstReason ps r') :
    r = r' := by
  induction ps with
  | nil => rw [show r = [] from h, show r' = [] from h']
  | cons p ps ih =>
    rcases h with h | ⟨h1, h2⟩
    · rcases h' with h' | ⟨h1', _⟩
      · exact hu p (by simp) _ _ h h'
      · exact absurd h (h1' r)
    · rcases h' with h' | ⟨_, h2'⟩
      · exact absurd h' (h1 r')
      · exact ih (fun q hq => hu q (by simp [hq])) h2 h2'

theorem firstLong_unique {ls : List Str} {b1 b2 a1 a2 : List Str} {l1 l2 : Str} (h1 : ls = b1 ++ l1 :: a1) (h2 : ls = b2 ++ l2 :: a2)
    (hb1 : ∀ x ∈ b1, x.length ≤ 1096) (hb2 : ∀ x ∈ b2, x.length ≤ 1096) (hl1 : 1096 < l1.length) (hl2 : 1096 < l2.length) : l1 = l2 := by
  induction b1 generalizing b2 ls with
  | nil =>
    cases b2 with
    | nil => rw [h1] at h2; injection h2
    | cons x b2 =>
      rw [h1] at h2; injection h2 with h2 _
      have := hb2 x (by simp); rw [← h2] at this; omega
  | cons y b1 ih =>
    cases b2 with
    | nil =>
      rw [h1] at h2; injection h2 with h2 _
      have := hb1 y (by simp); rw [h2] at this; omega
    | cons x b2 =>
      subst h1
      injection h2 with _ h2
      exact ih rfl h2 (fun z hz => hb1 z (by simp [hz])) (fun z hz => hb2 z (by simp [hz]))

theorem checks_unique (cl : Classifier) (a : InfoArgs) : ∀ p ∈ checks cl a, ∀ r r', p r → p r' → r = r' := by
  intro p hp r r' h h'
  simp only [checks, List.mem_cons, List.not_mem_nil, or_false] at hp
  rcases hp with rfl | rfl | rfl | rfl | rfl | rfl | rfl | rfl | rfl
  · rw [h.2, h'.2]
  · rw [h.2, h'.2]
  · rw [h.2, h'.2]
  · rw [h.2, h'.2]
  · rw [h.2, h'.2]
  · rw [h.2, h'.2]
  · rw [h.2, h'.2]
  · obtain ⟨b1, l1, a1, e1, f1, g1, rfl⟩ := h
    obtain ⟨b2, l2, a2, e2, f2, g2, rfl⟩ := h'
    rw [firstLong_unique e1 e2 f1 f2 g1 g2]
  · rw [h.2, h'.2]

/-- A file passes all checks iff it is acceptable. -/
theorem firstReason_nil_iff (cl : Classifier) (a : InfoArgs) : FirstReason (checks cl a) [] ↔ Acceptable cl a := by
  constructor
  · intro h
    simp only [checks, FirstReason] at h
    rcases h with ⟨_, h⟩ | ⟨h1, h⟩
    · simp at h
    rcases h with ⟨_, h⟩ | ⟨h2, h⟩
    · simp at h
    rcases h with ⟨_, h⟩ | ⟨h3, h⟩
    · simp at h
    rcases h with ⟨_, h⟩ | ⟨h4, h⟩
    · simp at h
    rcases h with ⟨_, h⟩ | ⟨h5, h⟩
    · simp at h
    rcases h with ⟨_, h⟩ | ⟨h6, h⟩
    · simp at h
    rcases h with ⟨_, h⟩ | ⟨h7, h⟩
    · simp at h
    rcases h with ⟨_, _, _, _, _, _, h⟩ | ⟨h8, h⟩
    · simp at h
    rcases h with ⟨_, h⟩ | ⟨h9, _⟩
    · simp at h
    refine ⟨?_, ?_, ?_, ?_, ?_, ?_, ?_, ?_, ?_⟩
    · exact Nat.le_of_not_lt (fun hc => h1 _ ⟨hc, rfl⟩)
    · exact fun hc => h2 _ ⟨hc, rfl⟩
    · exact Bool.eq_false_iff.2 (fun hc => h3 _ ⟨hc, rfl⟩)
    · exact Bool.eq_false_iff.2 (fun hc => h4 _ ⟨hc, rfl⟩)
    · exact Bool.eq_false_iff.2 (fun hc => h5 _ ⟨hc, rfl⟩)
    · intro hv; exact Classical.not_not.1 (fun hc => h6 _ ⟨⟨hv, hc⟩, rfl⟩)
    · exact Nat.le_of_not_lt (fun hc => h7 _ ⟨hc, rfl⟩)
    · cases hll : longLine a.lines with
      | none => exact longLine_none.1 hll
      | some n =>
        obtain ⟨b, l, af, e1, e2, e3, _⟩ := longLine_some hll
        exact absurd ⟨b, l, af, e1, e2, e3, rfl⟩ (h8 _)
    · exact fun hc => h9 _ ⟨hc, rfl⟩
  · rintro ⟨h1, h2, h3, h4, h5, h6, h7, h8, h9⟩
    refine Or.inr ⟨fun _ hc => absurd hc.1 (Nat.not_lt.2 h1), Or.inr ⟨fun _ hc => h2 hc.1, Or.inr ⟨?_, Or.inr ⟨?_, Or.inr ⟨?_, Or.inr ⟨?_,
      Or.inr ⟨fun _ hc => absurd hc.1 (Nat.not_lt.2 h7), Or.inr ⟨?_, Or.inr ⟨fun _ hc => h9 hc.1, rfl⟩⟩⟩⟩⟩⟩⟩⟩⟩
    · rw [h3]; simp
    · rw [h4]; simp
    · rw [h5]; simp
    · exact fun _ hc => hc.1.2 (h6 hc.1.1)
    · rintro _ ⟨b, l, af, e1, _, e3, _⟩
      have := h8 l (by rw [e1]; simp)
      omega

/-- **C45.** After any sequence of earlier calls, a call that returns reports the first failing check of the list, in that order, and nothing if the file
passes them all. -/
theorem C45_first_failing_check {cl : Classifier} (hl : Lawful cl) (as : List InfoArgs) {out : List (Info × Str)} (h : getInfos cl [] as = .ok out)
    {n : Nat} {a : InfoArgs} {i : Info} {r : Str} (ha : as[n]? = some a) (ho : out[n]? = some (i, r)) :
    ∀ r', FirstReason (checks cl a) r' ↔ r' = r := by
  have hf := C46_answer h ha ho
  intro r'
  have h1 := (getInfoFresh_spec hl a hf).1
  constructor
  · intro h'; exact FirstReason.unique (checks_unique cl a) h' h1
  · rintro rfl; exact h1

/-- **C45.** The file is processed (no reason to skip it) iff it is acceptable; then its language is reported, otherwise the language is empty. -/
theorem C45_processed_iff {cl : Classifier} (hl : Lawful cl) (as : List InfoArgs) {out : List (Info × Str)} (h : getInfos cl [] as = .ok out)
    {n : Nat} {a : InfoArgs} {i : Info} {r : Str} (ha : as[n]? = some a) (ho : out[n]? = some (i, r)) :
    (r = [] ↔ Acceptable cl a) ∧ (r = [] → i.language = cl.language a.path a.content) ∧ (r ≠ [] → i.language = []) := by
  have hf := C46_answer h ha ho
  have hs := getInfoFresh_spec hl a hf
  refine ⟨?_, ?_, ?_⟩
  · rw [← firstReason_nil_iff]
    constructor
    · rintro rfl; exact hs.1
    · intro h'; exact FirstReason.unique (checks_unique cl a) hs.1 h'
  · intro hr; rw [hs.2.2, if_pos hr]
  · intro hr; rw [hs.2.2, if_neg hr]

/-- **C45.** A licence is reported exactly when the reason is that the file is a licence file, and it is one of the most confident matches. -/
theorem C45_license_reported {cl : Classifier} (hl : Lawful cl) (as : List InfoArgs) {out : List (Info × Str)} (h : getInfos cl [] as = .ok out)
    {n : Nat} {a : InfoArgs} {i : Info} {r : Str} (ha : as[n]? = some a) (ho : out[n]? = some (i, r)) :
    (i.license.isSome ↔ r = b!"File is a license file") ∧
    ∀ l, i.license = some l → ∃ kv, cl.licenseDb a.path a.content = .found kv ∧ (l.name, l.confidence) ∈ kv ∧ cl.minConfidence ≤ l.confidence
      ∧ ∀ e ∈ kv, e.2 ≤ l.confidence := by
  have hf := C46_answer h ha ho
  rcases (getInfoFresh_spec hl a hf).2.1 with ⟨h1, l, h2, h3⟩ | ⟨h1, h2⟩
  · refine ⟨by simp [h1, h3], ?_⟩
    intro l' hl'
    rw [h3] at hl'; injection hl' with hl'; subst hl'
    exact C45_license hl h2
  · refine ⟨by simp [h1, h2], ?_⟩
    intro l' hl'; rw [h2] at hl'; cases hl'

/-- **C45 (panic).** A sequence of calls fails only because the licence database failed on a file with a licence name that is not too large. -/
theorem C45_panics_only_for_license_db {cl : Classifier} (hl : Lawful cl) (as : List InfoArgs) {w : Fault} (h : getInfos cl [] as = .error w) :
    ∃ a ∈ as, a.content.length ≤ 1000000 ∧ LicenseName a.path ∧ cl.licenseDb a.path a.content = .failed := by
  rw [C46_history_independent] at h
  induction as with
  | nil => cases h
  | cons a as ih =>
    rw [List.mapM_cons] at h
    cases hf : getInfoFresh cl a with
    | ok r =>
      rw [hf] at h
      simp only [bind, Except.bind] at h
      cases hm : List.mapM (getInfoFresh cl) as with
      | ok rs => rw [hm] at h; cases h
      | error w' =>
        obtain ⟨b, hb, h'⟩ := ih (by rw [hm] at h ⊢; exact h)
        exact ⟨b, by simp [hb], h'⟩
    | error w' =>
      refine ⟨a, by simp, ?_⟩
      unfold getInfoFresh getInfo at hf
      simp only at hf
      split at hf
      · cases hf
      · rename_i hsz
        simp only [maxFileSize] at hsz
        refine ⟨by omega, ?_⟩
        cases hli : licenseOf cl a with
        | error w'' =>
          unfold licenseOf at hli
          by_cases hp : possibleLicense a.path = true
          · rw [if_pos hp] at hli
            refine ⟨(possibleLicense_iff _).1 hp, ?_⟩
            rcases detect_spec hl a.path a.content with ⟨w, h1, h2⟩ | ⟨h1, _, h3⟩ | ⟨kv, l, h1, h2, h3, h4, h5⟩
            · exact h2
            · rw [h1] at hli; cases hli
            · rw [h1] at hli; cases hli
          · rw [if_neg hp] at hli; cases hli
        | ok l =>
          exfalso
          rw [hli] at hf
          cases l with
          | some l => cases hf
          | none =>
            simp only [bind, Except.bind] at hf
            by_cases hs : (checkFilePath cl [] a.path).fst = []
            · simp [hs, pure, Except.pure] at hf
            · simp [hs, pure, Except.pure] at hf

/-! ### Examples and the nondeterminism of the licence -/

/-- A small classifier. -/
def exCl (rev : Bool) : Classifier where
  isConfig p := p == b!"a.yaml"
  isDot p := startsWith p b!"."
  ignored p := p == b!"go.sum"
  isVendor p := p == b!"src/cache/x.go" || p == b!"cache/x.go"
  language p _ := if p == b!"data" then [] else b!"Go"
  licenseDb p _ := if p == b!"LICENSE" then .found [(b!"MIT", 90), (b!"X11", 90)] else .notFound
  minConfidence := 85
  mapOrder kv := if rev then kv.reverse else kv
  sortMatches := isort confGe

theorem confGe_le {a b : License} (h : confGe a b = true) : b.confidence ≤ a.confidence := by
  simp only [confGe, Bool.not_eq_true', decide_eq_false_iff_not] at h
  omega

theorem exCl_lawful (rev : Bool) : Lawful (exCl rev) where
  order kv := by
    show (if rev = true then kv.reverse else kv).Perm kv
    split
    · exact List.reverse_perm kv
    · exact List.Perm.refl _
  sort l := ⟨isort_perm _ _, List.Pairwise.imp confGe_le
    (isort_sorted (by intro a b; simp only [confGe, Bool.not_eq_true', decide_eq_false_iff_not]; omega)
      (by intro a b c; simp only [confGe, Bool.not_eq_true', decide_eq_false_iff_not]; omega) l)⟩

/-- Files accepted and refused, one after the other, twice with the same path. -/
example : (getInfos (exCl false) [] [⟨b!"a.go", [b!"x"], b!"x\n"⟩, ⟨b!"a.yaml", [], []⟩, ⟨b!"src/cache/x.go", [], []⟩, ⟨b!"cache/x.go", [], []⟩,
    ⟨b!"cache/x.go", [], []⟩, ⟨b!"data", [], []⟩, ⟨b!"LICENSE", [], []⟩])
    = .ok [({ language := b!"Go" }, []), ({}, b!"File was a config file"), ({ language := b!"Go" }, []), ({}, b!"File was a vendored file"),
      ({}, b!"File was a vendored file"), ({}, b!"Language was unknown"), ({ license := some ⟨b!"MIT", 90⟩ }, b!"File is a license file")] := by
  decide

example : Acceptable (exCl false) ⟨b!"a.go", [b!"x"], b!"x\n"⟩ where
  size := by decide
  noLicense := by rintro ⟨_, kv, h, _⟩; simp [exCl] at h
  notConfig := rfl
  notDot := rfl
  notIgnored := rfl
  notVendored := by intro h; cases h
  lines := by decide
  width := by decide
  language := by decide

/-- **C45 (finding).** With two equally confident matches, the licence that is reported depends on the iteration order of a Go map: two runs on the same
file may answer differently. -/
theorem C45_license_tie_nondeterministic : ∃ (c1 c2 : Classifier) (a : InfoArgs), Lawful c1 ∧ Lawful c2 ∧
    (∀ p c, c1.licenseDb p c = c2.licenseDb p c ∧ c1.language p c = c2.language p c) ∧ c1.sortMatches = c2.sortMatches ∧
    (getInfoFresh c1 a).toOption ≠ (getInfoFresh c2 a).toOption :=
  ⟨exCl false, exCl true, ⟨b!"LICENSE", [], []⟩, exCl_lawful _, exCl_lawful _, fun _ _ => ⟨rfl, rfl⟩, rfl, by decide⟩

/-- **C45 (finding).** The name check of licence files is not anchored: any name that ends in `README` counts, and so does every file below a directory
called `LICENSE-something`. -/
theorem C45_license_name_not_anchored (pre rest : Str) (h : (10 : UInt8) ∉ rest) :
    possibleLicense (pre ++ b!"README") = true ∧ possibleLicense (pre ++ (b!"LICENSE-" ++ rest)) = true :=
  ⟨(possibleLicense_iff _).2 (Or.inl ⟨pre, b!"README", b!"", by rw [List.append_nil], by simp, by simp⟩),
   (possibleLicense_iff _).2 (Or.inr ⟨pre, rest, rfl, h⟩)⟩

end Ripsrc
