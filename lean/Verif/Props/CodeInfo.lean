import Verif.Spec.CodeInfo
import Verif.Props.FileInfo
/-!
# C42-C44: code records
-/
namespace Ripsrc
open Spec

theorem containsStr_iff (w s : Str) : containsStr w s = true ↔ ∃ pre post, s = pre ++ (w ++ post) := by
  induction s with
  | nil =>
    simp only [containsStr, List.isEmpty_iff]
    constructor
    · rintro rfl; exact ⟨[], [], rfl⟩
    · rintro ⟨pre, post, h⟩
      have h1 := List.append_eq_nil_iff.1 h.symm
      exact (List.append_eq_nil_iff.1 h1.2).1
  | cons b s ih =>
    simp only [containsStr, Bool.or_eq_true, ih, startsWith_iff]
    constructor
    · rintro (⟨r, h⟩ | ⟨pre, post, h⟩)
      · exact ⟨[], r, h⟩
      · exact ⟨b :: pre, post, by rw [h]; rfl⟩
    · rintro ⟨pre, post, h⟩
      cases pre with
      | nil => exact Or.inl ⟨post, h⟩
      | cons c pre => injection h with _ h; exact Or.inr ⟨pre, post, h⟩

theorem generatedMarker_iff (s : Str) : generatedMarker s = true ↔ HasMarker s := by
  simp only [generatedMarker, Bool.or_eq_true, containsStr_iff, HasMarker, List.mem_cons, List.not_mem_nil, or_false, exists_eq_or_imp, exists_eq_left, or_assoc]

/-- The state of the line processor after the calls `calls`. -/
structure ProcInv {τ : Type} (start : List (StatsLine τ)) (texts : List Str) (calls : List (Int × LineType)) (p : StatsProc τ) : Prop where
  len : p.lines.length = texts.length
  startLen : start.length = texts.length
  line : ∀ (i : Nat) (l0 : StatsLine τ) (l : StatsLine τ) (t : Str), start[i]? = some l0 → p.lines[i]? = some l → texts[i]? = some t →
    l.bl.name = l0.bl.name ∧ l.bl.email = l0.bl.email ∧ l.bl.date = l0.bl.date ∧ l.bl.sha = l0.bl.sha ∧
    (l.bl.comment = true ↔ ((i : Int) + 1, LineType.comment) ∈ calls) ∧
    (l.bl.code = true ↔ ((i : Int) + 1, LineType.code) ∈ calls) ∧
    (l.bl.blank = true ↔ ((i : Int) + 1, LineType.blank) ∈ calls) ∧
    l.line = if l.bl.comment = true then none else some t
  gen : p.generated = true ↔ Generated texts calls

theorem classify_same {τ : Type} (l : CodeLine τ) (ty : LineType) :
    (l.classify ty).name = l.name ∧ (l.classify ty).email = l.email ∧ (l.classify ty).date = l.date ∧ (l.classify ty).sha = l.sha ∧
    ((l.classify ty).comment = true ↔ l.comment = true ∨ ty = .comment) ∧
    ((l.classify ty).code = true ↔ l.code = true ∨ ty = .code) ∧
    ((l.classify ty).blank = true ↔ l.blank = true ∨ ty = .blank) := by
  cases ty <;> simp [CodeLine.classify]

theorem Generated.append {texts : List Str} {calls : List (Int × LineType)} {c : Int × LineType} :
    Generated texts (calls ++ [c]) ↔ Generated texts calls ∨
      ∃ (i : Nat) (text : Str), c = ((i : Int) + 1, LineType.comment) ∧ texts[i]? = some text ∧ HasMarker text := by
  constructor
  · rintro ⟨i, t, h1, h2, h3⟩
    rcases List.mem_append.1 h1 with h1 | h1
    · exact Or.inl ⟨i, t, h1, h2, h3⟩
    · exact Or.inr ⟨i, t, (List.mem_singleton.1 h1).symm, h2, h3⟩
  · rintro (⟨i, t, h1, h2, h3⟩ | ⟨i, t, h1, h2, h3⟩)
    · exact ⟨i, t, by simp [h1], h2, h3⟩
    · exact ⟨i, t, by simp [h1], h2, h3⟩

theorem goOn_iff {texts : List Str} {before : List (Int × LineType)} {n : Int} {ty : LineType} : goOn texts before n ty = true ↔
    ∃ (i : Nat) (text : Str), n = (i : Int) + 1 ∧ texts[i]? = some text ∧ ¬ (ty = .comment ∧ (n, LineType.comment) ∉ before ∧ HasMarker text) :=
  @decide_eq_true_iff _ (Classical.propDecidable _)

theorem processLine_inv {τ : Type} {start : List (StatsLine τ)} {texts : List Str} {calls : List (Int × LineType)} {p : StatsProc τ}
    (h : ProcInv start texts calls p) (n : Int) (ty : LineType) :
    ProcInv start texts (calls ++ [(n, ty)]) (processLine p n ty).1 ∧ (processLine p n ty).2 = goOn texts calls n ty := by
  obtain ⟨hlen, hslen, hline, hgen⟩ := h
  unfold processLine
  simp only
  by_cases hr : 0 ≤ n - 1 ∧ n - 1 < p.lines.length
  · rw [if_pos hr]
    obtain ⟨k, hk⟩ : ∃ k : Nat, n - 1 = (k : Int) := ⟨(n - 1).toNat, by omega⟩
    have hn : n = (k : Int) + 1 := by omega
    have hkl : k < p.lines.length := by omega
    have hto : (n - 1).toNat = k := by omega
    rw [hto]
    have hgk : p.lines[k]? = some (p.lines[k]'hkl) := List.getElem?_eq_getElem hkl
    rw [hgk]
    generalize p.lines[k]'hkl = l at hgk
    obtain ⟨t, ht⟩ : ∃ t, texts[k]? = some t := ⟨_, List.getElem?_eq_getElem (by omega)⟩
    obtain ⟨l0, hl0⟩ : ∃ l0, start[k]? = some l0 := ⟨_, List.getElem?_eq_getElem (by omega)⟩
    obtain ⟨c1, c2, c3, c4, c5, c6, c7, c8⟩ := hline k l0 l t hl0 hgk ht
    obtain ⟨d1, d2, d3, d4, d5, d6, d7⟩ := classify_same l.bl ty
    -- the invariant on lines after updating line k to l'
    have hupd : ∀ l' : StatsLine τ, l'.bl = l.bl.classify ty → (l'.line = if (l.bl.classify ty).comment = true then none else some t) →
        ∀ (i : Nat) (l0 : StatsLine τ) (x : StatsLine τ) (t : Str), start[i]? = some l0 → (p.lines.set k l')[i]? = some x → texts[i]? = some t →
          x.bl.name = l0.bl.name ∧ x.bl.email = l0.bl.email ∧ x.bl.date = l0.bl.date ∧ x.bl.sha = l0.bl.sha ∧
          (x.bl.comment = true ↔ ((i : Int) + 1, LineType.comment) ∈ calls ++ [(n, ty)]) ∧
          (x.bl.code = true ↔ ((i : Int) + 1, LineType.code) ∈ calls ++ [(n, ty)]) ∧
          (x.bl.blank = true ↔ ((i : Int) + 1, LineType.blank) ∈ calls ++ [(n, ty)]) ∧
          x.line = if x.bl.comment = true then none else some t := by
      intro l' hb hl' i l0' x t' hs hx htx
      by_cases hik : i = k
      · subst hik
        rw [List.getElem?_set_self hkl] at hx
        injection hx with hx
        subst hx
        rw [hl0] at hs; injection hs with hs; subst hs
        rw [ht] at htx; injection htx with htx; subst htx
        rw [hb, hl', d1, d2, d3, d4]
        refine ⟨c1, c2, c3, c4, ?_, ?_, ?_, rfl⟩
        · rw [d5, c5, hn]; simp [eq_comm]
        · rw [d6, c6, hn]; simp [eq_comm]
        · rw [d7, c7, hn]; simp [eq_comm]
      · rw [List.getElem?_set_ne (Ne.symm hik)] at hx
        have hne : (i : Int) + 1 ≠ n := by omega
        have := hline i l0' x t' hs hx htx
        simpa [hne] using this
    have hgo : ∀ b : Bool, (b = true ↔ ¬ (ty = .comment ∧ (n, LineType.comment) ∉ calls ∧ HasMarker t)) → b = goOn texts calls n ty := by
      intro b hb
      rw [Bool.eq_iff_iff, hb, goOn_iff]
      constructor
      · intro h; exact ⟨k, t, hn, ht, h⟩
      · rintro ⟨i, t', hi, ht', h⟩
        have : i = k := by omega
        subst this
        rw [ht] at ht'; injection ht' with ht'; subst ht'; exact h
    have hgenapp : Generated texts (calls ++ [(n, ty)]) ↔ Generated texts calls ∨ (ty = .comment ∧ HasMarker t) := by
      rw [Generated.append]
      constructor
      · rintro (h | ⟨i, t', h1, h2, h3⟩)
        · exact Or.inl h
        · injection h1 with h1 h1'
          have : i = k := by omega
          subst this
          rw [ht] at h2; injection h2 with h2; subst h2
          exact Or.inr ⟨h1', h3⟩
      · rintro (h | ⟨h1, h2⟩)
        · exact Or.inl h
        · exact Or.inr ⟨k, t, by rw [hn, h1], ht, h2⟩
    -- comment already seen for a marked line means generated already
    have hold : (n, LineType.comment) ∈ calls → HasMarker t → Generated texts calls := fun h1 h2 => ⟨k, t, by rw [← hn]; exact h1, ht, h2⟩
    rw [hn] at hold
    by_cases hcm : (l.bl.classify ty).comment = true
    · by_cases hc0 : l.bl.comment = true
      · -- the text was examined before
        have hnone : l.line = none := by rw [c8, if_pos hc0]
        simp only [hnone]
        have hin := c5.1 hc0
        refine ⟨⟨by simp [hlen], hslen, hupd { bl := l.bl.classify ty, line := none } rfl (by simp only [hcm, if_true]), ?_⟩, hgo _ ?_⟩
        · simp only [hgen, hgenapp]
          constructor
          · exact Or.inl
          · rintro (h | ⟨_, h⟩)
            · exact h
            · exact hold hin h
        · simp only [true_iff]; rintro ⟨_, h, _⟩; exact h (by rw [hn]; exact hin)
      · have hty : ty = .comment := (d5.1 hcm).resolve_left hc0
        have hsome : l.line = some t := by rw [c8, if_neg hc0]
        have hnin : (n, LineType.comment) ∉ calls := by rw [hn]; exact fun hc => hc0 (c5.2 hc)
        simp only [hsome, hcm]
        by_cases hmk : generatedMarker t = true
        · simp only [hmk, if_true]
          refine ⟨⟨by simp [hlen], hslen, hupd { bl := l.bl.classify ty, line := none } rfl (by simp only [hcm, if_true]), ?_⟩, hgo _ ?_⟩
          · simp only [true_iff, hgenapp]; exact Or.inr ⟨hty, (generatedMarker_iff t).1 hmk⟩
          · simp only [Bool.false_eq_true, false_iff, Classical.not_not]; exact ⟨hty, hnin, (generatedMarker_iff t).1 hmk⟩
        · have hmk' : ¬ HasMarker t := fun hc => hmk ((generatedMarker_iff t).2 hc)
          simp only [hmk, if_false, Bool.false_eq_true]
          refine ⟨⟨by simp [hlen], hslen, hupd { bl := l.bl.classify ty, line := none } rfl (by simp only [hcm, if_true]), ?_⟩, hgo _ ?_⟩
          · simp only [hgen, hgenapp]
            constructor
            · exact Or.inl
            · rintro (h | ⟨_, h⟩)
              · exact h
              · exact absurd h hmk'
          · simp only [true_iff]; rintro ⟨_, _, h⟩; exact hmk' h
    · have hty : ty ≠ .comment := fun hc => hcm (d5.2 (Or.inr hc))
      have hc0 : ¬ l.bl.comment = true := fun hc => hcm (d5.2 (Or.inl hc))
      have hcm' : (l.bl.classify ty).comment = false := by simpa using hcm
      have hsome : l.line = some t := by rw [c8, if_neg hc0]
      simp only [hcm', hsome]
      refine ⟨⟨by simp [hlen], hslen, hupd { bl := l.bl.classify ty, line := some t } rfl (by simp only [hcm', Bool.false_eq_true, if_false]), ?_⟩, hgo _ ?_⟩
      · simp only [hgen, hgenapp]
        constructor
        · exact Or.inl
        · rintro (h | ⟨h, _⟩)
          · exact h
          · exact absurd h hty
      · simp only [true_iff]; rintro ⟨h, _, _⟩; exact hty h
  · rw [if_neg hr]
    have hout : ∀ i : Nat, (i < texts.length) → (i : Int) + 1 ≠ n := by
      intro i hi; rw [hlen] at hr; omega
    refine ⟨⟨hlen, hslen, ?_, ?_⟩, ?_⟩
    · intro i l0 l t hs hl ht
      have hi : i < texts.length := by
        rcases List.getElem?_eq_some_iff.1 ht with ⟨h, _⟩; exact h
      have hne := hout i hi
      simpa [hne] using hline i l0 l t hs hl ht
    · rw [hgen, Generated.append]
      constructor
      · exact Or.inl
      · rintro (h | ⟨i, t, h1, h2, _⟩)
        · exact h
        · injection h1 with h1 _
          rcases List.getElem?_eq_some_iff.1 h2 with ⟨h, _⟩
          exact absurd h1.symm (hout i h)
    · symm
      rw [← Bool.not_eq_true, goOn_iff]
      rintro ⟨i, t, h1, h2, _⟩
      rcases List.getElem?_eq_some_iff.1 h2 with ⟨h, _⟩
      exact hout i h h1.symm

theorem runScc_inv {τ : Type} {start : List (StatsLine τ)} {texts : List Str} (run : SccRun) :
    ∀ {calls : List (Int × LineType)} {p : StatsProc τ}, ProcInv start texts calls p →
      (runScc run p).1 = (callsOf (goOn texts) calls run).1 ∧ (runScc run p).2.1 = (callsOf (goOn texts) calls run).2 ∧
      ProcInv start texts (calls ++ (runScc run p).1) (runScc run p).2.2 := by
  induction run with
  | done t => intro calls p h; exact ⟨rfl, rfl, by simpa [runScc] using h⟩
  | call n ty next ih =>
    intro calls p h
    obtain ⟨h1, h2⟩ := processLine_inv h n ty
    obtain ⟨i1, i2, i3⟩ := ih _ h1
    simp only [runScc, callsOf]
    rw [← h2]
    refine ⟨by rw [i1], i2, ?_⟩
    simpa using i3

/-- **C44.** For every way the line counter may call back: the flags of a line are the classes it was called with; the file counts as generated iff a line
called as a comment has a mark; calls for lines that do not exist change nothing; the counter is told to stop exactly at such a call and at the first marked comment. -/
theorem C44_line_classes {τ : Type} (metas : GoMap Str (MetaCommit τ)) (ls : List Line) (run : SccRun) :
    let out := runScc run { lines := ls.map (codeLine metas) }
    out.1 = (callsOf (goOn (ls.map (·.line))) [] run).1 ∧ out.2.1 = (callsOf (goOn (ls.map (·.line))) [] run).2 ∧
    LinesOf metas out.1 ls (out.2.2.lines.map (·.bl)) ∧ (out.2.2.generated = true ↔ Generated (ls.map (·.line)) out.1) := by
  intro out
  have h0 : ProcInv (ls.map (codeLine metas)) (ls.map (·.line)) [] { lines := ls.map (codeLine metas) } := by
    refine ⟨by simp, by simp, ?_, ?_⟩
    · intro i l0 l t h1 h2 h3
      rw [List.getElem?_map] at h1 h2 h3
      cases hl : ls[i]? with
      | none => rw [hl] at h1; cases h1
      | some x =>
        rw [hl] at h1 h2 h3
        injection h1 with h1; injection h2 with h2; injection h3 with h3
        subst h1; subst h2; subst h3
        simp [codeLine]
    · simp [Generated]
  obtain ⟨h1, h2, h3⟩ := runScc_inv run h0
  refine ⟨h1, h2, ?_, ?_⟩
  · obtain ⟨hlen, _, hline, _⟩ := h3
    refine ⟨by simpa using hlen, ?_⟩
    intro i l c hl hc
    rw [List.getElem?_map] at hc
    cases hx : out.2.2.lines[i]? with
    | none => rw [hx] at hc; cases hc
    | some x =>
      rw [hx] at hc
      injection hc with hc
      subst hc
      obtain ⟨e1, e2, e3, e4, e5, e6, e7, _⟩ := hline i (codeLine metas l) x l.line (by simp [hl]) hx (by simp [hl])
      rw [List.nil_append] at e5 e6 e7
      refine ⟨e4, ?_, ?_, e5, e6, e7⟩
      · intro m hm; rw [e1, e2, e3]; simp [codeLine, metaAt, hm]
      · intro hm; rw [e1, e2, e3]; simp [codeLine, metaAt, hm, zeroCommit]
  · have := h3.gen
    rw [List.nil_append] at this
    exact this

theorem getInfo_judged {cl : Classifier} (hl : Lawful cl) {cache cache' : GoMap Str Str} (hc : CacheOk cl cache) {a : InfoArgs} {i : Info} {r : Str}
    (h : getInfo cl cache a = .ok ((i, r), cache')) : Judged cl a i.language i.license r ∧ CacheOk cl cache' := by
  rcases getInfo_cache hc a with ⟨w, h1, _⟩ | ⟨r', c', h1, h2, h3⟩
  · rw [h1] at h; cases h
  · rw [h1] at h
    injection h with h
    injection h with e1 e2
    subst e1; subst e2
    refine ⟨?_, h3⟩
    obtain ⟨s1, s2, s3⟩ := getInfoFresh_spec hl a h2
    refine ⟨s1, s3, ?_, ?_⟩
    · rcases s2 with ⟨x1, l, x2, x3⟩ | ⟨x1, x2⟩
      · simp [x1, x3]
      · simp [x1, x2]
    · intro l hll
      rcases s2 with ⟨x1, l', x2, x3⟩ | ⟨x1, x2⟩
      · rw [x3] at hll; injection hll with hll; subst hll
        exact C45_license hl x2
      · rw [x2] at hll; cases hll

/-- One file. -/
theorem codeInfoEntry_spec {τ : Type} {cl : Classifier} (hl : Lawful cl) (scc : Str → Str → Str → SccRun) (metas : GoMap Str (MetaCommit τ))
    (commit : MetaCommit τ) {cache cache' : GoMap Str Str} (hc : CacheOk cl cache) {path : Str} {b : Blame} {r : Option (CodeRecord τ)}
    (h : codeInfoEntry cl scc metas commit cache path b = .ok (r, cache')) :
    CacheOk cl cache' ∧
    ((r = none ∧ (path = [] ∨ GoMap.get commit.files path = none)) ∨
     (∃ rec f, r = some rec ∧ path ≠ [] ∧ GoMap.get commit.files path = some f ∧ rec.filename = path ∧ CodeOf cl scc metas commit b f rec)) := by
  unfold codeInfoEntry at h
  by_cases hp : path = []
  · rw [if_pos hp] at h; injection h with h; injection h with h1 h2; subst h2; exact ⟨hc, Or.inl ⟨h1.symm, Or.inl hp⟩⟩
  · rw [if_neg hp] at h
    cases hf : GoMap.get commit.files path with
    | none =>
      rw [hf] at h; injection h with h; injection h with h1 h2; subst h2; exact ⟨hc, Or.inl ⟨h1.symm, Or.inr rfl⟩⟩
    | some f =>
      rw [hf] at h
      simp only at h
      by_cases hs : f.status = .removed
      · rw [if_pos hs] at h; injection h with h; injection h with h1 h2; subst h2; subst h1
        refine ⟨hc, Or.inr ⟨_, f, rfl, hp, rfl, rfl, rfl, rfl, Or.inl ⟨hs, ⟨rfl, rfl, rfl, rfl⟩⟩⟩⟩
      · rw [if_neg hs] at h
        cases hg : getInfo cl cache ⟨path, blameLines b, blameContent b⟩ with
        | error w => rw [hg] at h; cases h
        | ok o =>
          obtain ⟨⟨info, skip⟩, c2⟩ := o
          rw [hg] at h
          obtain ⟨hj, hc2⟩ := getInfo_judged hl hc hg
          simp only [bind, Except.bind] at h
          have hcontent : blameContent b = (b.lines.map (fun l => l.line ++ [10])).flatten := by
            simp [blameContent, List.flatMap_def]
          by_cases hsk : skip = []
          · subst hsk
            simp only [ne_eq, not_true, if_false] at h
            injection h with h; injection h with h1 h2; subst h2; subst h1
            refine ⟨hc2, Or.inr ⟨_, f, rfl, hp, rfl, ?_, ?_⟩⟩
            · simp only [codeInfoFile]; split <;> rfl
            · obtain ⟨k1, k2, k3, k4⟩ := C44_line_classes metas b.lines (scc path info.language (blameContent b))
              simp only [codeInfoFile]
              generalize runScc (scc path info.language (blameContent b)) { lines := b.lines.map (codeLine metas) } = out at k1 k2 k3 k4
              obtain ⟨calls, tot, pr⟩ := out
              simp only at k1 k2 k3 k4 ⊢
              subst k1
              subst k2
              by_cases hgen : pr.generated = true
              · simp only [hgen, if_true]
                refine ⟨rfl, rfl, Or.inr ⟨hs, blameContent b, info.language, [], hcontent, hj, Or.inr ⟨rfl, ⟨rfl, k3, rfl, ?_, ?_⟩⟩⟩⟩
                · intro _; exact ⟨rfl, rfl⟩
                · intro hn; exact absurd (k4.1 hgen) hn
              · simp only [hgen, if_false, Bool.false_eq_true]
                refine ⟨rfl, rfl, Or.inr ⟨hs, blameContent b, info.language, [], hcontent, hj, Or.inr ⟨rfl, ⟨rfl, k3, rfl, ?_, ?_⟩⟩⟩⟩
                · intro hn; exact absurd (k4.2 hn) hgen
                · intro _; exact ⟨rfl, rfl⟩
          · simp only [ne_eq, hsk, not_false_eq_true, if_true] at h
            injection h with h; injection h with h1 h2; subst h2; subst h1
            refine ⟨hc2, Or.inr ⟨_, f, rfl, hp, rfl, rfl, rfl, rfl, Or.inr ⟨hs, blameContent b, info.language, skip, hcontent, hj,
              Or.inl ⟨hsk, rfl, rfl, ?_⟩⟩⟩⟩
            have := hj.lang
            rw [if_neg hsk] at this
            exact this

theorem codeInfoLoop_spec {τ : Type} {cl : Classifier} (hl : Lawful cl) (scc : Str → Str → Str → SccRun) (metas : GoMap Str (MetaCommit τ))
    (commit : MetaCommit τ) (es : Files) : ∀ {cache cache' : GoMap Str Str} {recs : List (CodeRecord τ)}, CacheOk cl cache →
    codeInfoLoop cl scc metas commit cache es = .ok (recs, cache') →
    CacheOk cl cache' ∧ recs.map (·.filename) = (es.map (·.1)).filter (fun p => decide (p ≠ []) && GoMap.has commit.files p) ∧
    ∀ rec ∈ recs, ∃ b f, (rec.filename, b) ∈ es ∧ GoMap.get commit.files rec.filename = some f ∧ CodeOf cl scc metas commit b f rec := by
  induction es with
  | nil =>
    intro cache cache' recs hc h
    injection h with h; injection h with h1 h2; subst h1; subst h2
    exact ⟨hc, rfl, by simp⟩
  | cons e es ih =>
    intro cache cache' recs hc h
    obtain ⟨path, b⟩ := e
    simp only [codeInfoLoop] at h
    cases he : codeInfoEntry cl scc metas commit cache path b with
    | error w => rw [he] at h; cases h
    | ok o =>
      obtain ⟨r, c2⟩ := o
      rw [he] at h
      simp only [bind, Except.bind] at h
      obtain ⟨hc2, hr⟩ := codeInfoEntry_spec hl scc metas commit hc he
      cases hlp : codeInfoLoop cl scc metas commit c2 es with
      | error w => rw [hlp] at h; cases h
      | ok o2 =>
        obtain ⟨rs, c3⟩ := o2
        rw [hlp] at h
        simp only [pure, Except.pure] at h
        injection h with h; injection h with h1 h2; subst h2; subst h1
        obtain ⟨hc3, hm, hall⟩ := ih hc2 hlp
        refine ⟨hc3, ?_, ?_⟩
        · rw [List.map_append, hm, List.map_cons]
          rcases hr with ⟨rfl, hr⟩ | ⟨rec, f, rfl, hp, hf, hfn, _⟩
          · rw [List.filter_cons_of_neg]
            · rfl
            · rcases hr with hr | hr
              · simp [hr]
              · simp [GoMap.has, hr]
          · rw [List.filter_cons_of_pos]
            · simp [hfn]
            · simp [GoMap.has, hf, hp]
        · intro rec hrec
          rcases List.mem_append.1 hrec with hrec | hrec
          · rcases hr with ⟨rfl, hr⟩ | ⟨rec', f, rfl, hp, hf, hfn, hco⟩
            · simp at hrec
            · have : rec = rec' := by simpa using hrec
              subst this
              exact ⟨b, f, by rw [hfn]; simp, by rw [hfn]; exact hf, hco⟩
          · obtain ⟨b', f, h1, h2, h3⟩ := hall rec hrec
            exact ⟨b', f, by simp [h1], h2, h3⟩

theorem codeByCommit_spec {τ : Type} {cl : Classifier} (hl : Lawful cl) (scc : Str → Str → Str → SccRun) (orders : Nat → Files → Files)
    (horder : ∀ n fs, (orders n fs).Perm fs) (metas : GoMap Str (MetaCommit τ)) (results : List Result) (hwf : ∀ r ∈ results, GoMap.WF r.files) :
    ∀ {k : Nat} {cache : GoMap Str Str} {out : List (MetaCommit τ × List (CodeRecord τ))}, CacheOk cl cache →
    codeByCommit cl scc orders metas k cache results = .ok out →
    out.length = results.length ∧ ∀ (n : Nat) (r : Result) (c : MetaCommit τ) (recs : List (CodeRecord τ)), results[n]? = some r → out[n]? = some (c, recs) →
      GoMap.get metas r.commit = some c ∧
      (recs.map (·.filename)).Perm ((GoMap.keys r.files).filter (fun p => decide (p ≠ []) && GoMap.has c.files p)) ∧
      ∀ rec ∈ recs, ∃ b f, GoMap.get r.files rec.filename = some b ∧ GoMap.get c.files rec.filename = some f ∧ CodeOf cl scc metas c b f rec := by
  induction results with
  | nil =>
    intro k cache out _ h
    injection h with h; subst h
    exact ⟨rfl, by intro n r c recs hr; cases hr⟩
  | cons r rs ih =>
    intro k cache out hc h
    simp only [codeByCommit] at h
    cases hm : GoMap.get metas r.commit with
    | none => rw [hm] at h; cases h
    | some c =>
      rw [hm] at h
      simp only at h
      cases hf : codeInfoFiles cl scc (orders k) metas cache r with
      | error w => rw [hf] at h; cases h
      | ok o =>
        obtain ⟨recs, c2⟩ := o
        rw [hf] at h
        simp only [bind, Except.bind] at h
        unfold codeInfoFiles at hf
        have hma : metaAt metas r.commit = c := by simp [metaAt, hm]
        simp only [hma] at hf
        split at hf
        · obtain ⟨hc2, hn, hall⟩ := codeInfoLoop_spec hl scc metas c _ hc hf
          cases hb : codeByCommit cl scc orders metas (k + 1) c2 rs with
          | error w => rw [hb] at h; cases h
          | ok out' =>
            rw [hb] at h
            simp only [pure, Except.pure] at h
            injection h with h; subst h
            obtain ⟨hlen, hrest⟩ := ih (fun x hx => hwf x (by simp [hx])) hc2 hb
            refine ⟨by simp [hlen], ?_⟩
            intro n r' c' recs' h1 h2
            cases n with
            | zero =>
              injection h1 with h1; injection h2 with h2; subst h1
              injection h2 with h2 h3; subst h2; subst h3
              refine ⟨hm, ?_, ?_⟩
              · rw [hn]
                exact ((horder k r.files).map _).filter _
              · intro rec hrec
                obtain ⟨b, f, e1, e2, e3⟩ := hall rec hrec
                refine ⟨b, f, ?_, e2, e3⟩
                exact GoMap.get_of_mem (hwf r (by simp)) ((horder k r.files).mem_iff.1 e1)
            | succ n => exact hrest n r' c' recs' h1 h2
        · cases hf

/-- **C42.** If the records of a run are produced, there is one group per result, in order. Each group belongs to the commit of the result; its records are, in
some order, exactly one for each changed path that is not empty and has metadata; and each record says about its file what it should. -/
theorem C42_code_records {τ : Type} {cl : Classifier} (hl : Lawful cl) (scc : Str → Str → Str → SccRun) (orders : Nat → Files → Files)
    (horder : ∀ n fs, (orders n fs).Perm fs) (metas : GoMap Str (MetaCommit τ)) (results : List Result) (hwf : ∀ r ∈ results, GoMap.WF r.files)
    {out : List (MetaCommit τ × List (CodeRecord τ))} (h : codeByCommit cl scc orders metas 0 [] results = .ok out) :
    out.length = results.length ∧ ∀ (n : Nat) (r : Result) (c : MetaCommit τ) (recs : List (CodeRecord τ)), results[n]? = some r → out[n]? = some (c, recs) →
      GoMap.get metas r.commit = some c ∧
      (recs.map (·.filename)).Perm ((GoMap.keys r.files).filter (fun p => decide (p ≠ []) && GoMap.has c.files p)) ∧
      ∀ rec ∈ recs, ∃ b f, GoMap.get r.files rec.filename = some b ∧ GoMap.get c.files rec.filename = some f ∧ CodeOf cl scc metas c b f rec :=
  codeByCommit_spec hl scc orders horder metas results hwf (by intro p r hp; cases hp) h

theorem codeOf_line {τ : Type} {cl : Classifier} {scc : Str → Str → Str → SccRun} {metas : GoMap Str (MetaCommit τ)} {c : MetaCommit τ} {b : Blame}
    {f : CommitFile} {rec : CodeRecord τ} (h : CodeOf cl scc metas c b f rec) {i : Nat} {x : CodeLine τ} (hx : rec.lines[i]? = some x) :
    ∃ l calls, b.lines[i]? = some l ∧ LineOf metas calls i l x := by
  obtain ⟨_, _, ⟨_, h⟩ | ⟨_, content, lang, skip, _, _, h | ⟨_, h⟩⟩⟩ := h
  · rw [h.lines] at hx; cases hx
  · rw [h.lines] at hx; cases hx
  · obtain ⟨hlen, hall⟩ := h.lines
    have hi : i < b.lines.length := by
      rw [← hlen]
      rcases List.getElem?_eq_some_iff.1 hx with ⟨h, _⟩; exact h
    exact ⟨b.lines[i], _, List.getElem?_eq_getElem hi, hall i _ x (List.getElem?_eq_getElem hi) hx⟩

/-- "Generated" is not one of the reasons of the file filter. -/
theorem not_generated_reason {cl : Classifier} {a : InfoArgs} {skip : Str} (hr : FirstReason (checks cl a) skip) (hs : skip = b!"file was a generated file") : False := by
  subst hs
  simp only [checks, FirstReason] at hr
  rcases hr with ⟨_, h⟩ | ⟨_, h⟩
  · simp at h
  rcases h with ⟨_, h⟩ | ⟨_, h⟩
  · simp at h
  rcases h with ⟨_, h⟩ | ⟨_, h⟩
  · simp at h
  rcases h with ⟨_, h⟩ | ⟨_, h⟩
  · simp at h
  rcases h with ⟨_, h⟩ | ⟨_, h⟩
  · simp at h
  rcases h with ⟨_, h⟩ | ⟨_, h⟩
  · simp at h
  rcases h with ⟨_, h⟩ | ⟨_, h⟩
  · simp at h
  rcases h with ⟨_, _, _, _, _, _, h⟩ | ⟨_, h⟩
  · simp at h
  rcases h with ⟨_, h⟩ | ⟨_, h⟩
  · simp at h
  · simp at h

/-- **C42.** The record of a processed file has a line for every line of the blame. -/
theorem C42_one_line_per_blame_line {τ : Type} {cl : Classifier} {scc : Str → Str → Str → SccRun} {metas : GoMap Str (MetaCommit τ)} {c : MetaCommit τ} {b : Blame}
    {f : CommitFile} {rec : CodeRecord τ} (h : CodeOf cl scc metas c b f rec) (hs : rec.skipped = [] ∨ rec.skipped = b!"file was a generated file") :
    rec.lines.length = b.lines.length := by
  obtain ⟨_, _, ⟨_, h⟩ | ⟨_, content, lang, skip, _, hj, h | ⟨_, h⟩⟩⟩ := h
  · rw [h.skipped] at hs; simp at hs
  · rw [h.skipped] at hs
    rcases hs with hs | hs
    · exact absurd hs h.reason
    · exfalso
      exact not_generated_reason hj.reason hs
  · exact h.lines.1

/-- A record of the run for the `n`-th result. -/
def Emitted {τ : Type} (out : List (MetaCommit τ × List (CodeRecord τ))) (n : Nat) (rec : CodeRecord τ) : Prop :=
  ∃ c recs, out[n]? = some (c, recs) ∧ rec ∈ recs

/-- **C43.** Every line carries the hash of the commit that the blame attributes it to. The author is the one in the metadata if the metadata of the run include
that commit, and is empty if they do not. -/
theorem C43_authors {τ : Type} {cl : Classifier} (hl : Lawful cl) (scc : Str → Str → Str → SccRun) (orders : Nat → Files → Files)
    (horder : ∀ n fs, (orders n fs).Perm fs) (metas : GoMap Str (MetaCommit τ)) (results : List Result) (hwf : ∀ r ∈ results, GoMap.WF r.files)
    {out : List (MetaCommit τ × List (CodeRecord τ))} (h : codeByCommit cl scc orders metas 0 [] results = .ok out)
    {n : Nat} {r : Result} {rec : CodeRecord τ} (hr : results[n]? = some r) (he : Emitted out n rec) {i : Nat} {x : CodeLine τ} (hx : rec.lines[i]? = some x) :
    ∃ b l, GoMap.get r.files rec.filename = some b ∧ b.lines[i]? = some l ∧ x.sha = l.commit ∧
      (∀ m, GoMap.get metas l.commit = some m → x.name = m.authorName ∧ x.email = m.authorEmail ∧ x.date = m.date) ∧
      (GoMap.get metas l.commit = none → x.name = [] ∧ x.email = [] ∧ x.date = none) := by
  obtain ⟨c, recs, ho, hm⟩ := he
  obtain ⟨_, _, hall⟩ := (C42_code_records hl scc orders horder metas results hwf h).2 n r c recs hr ho
  obtain ⟨b, f, hb, _, hco⟩ := hall rec hm
  obtain ⟨l, calls, h1, h2⟩ := codeOf_line hco hx
  exact ⟨b, l, hb, h1, h2.sha, h2.author, h2.unknown⟩

/-- **C42 (panics).** The records of a run are produced unless a result has no metadata, or a rename in the metadata has a target that is not among the files of
the blame, or the licence database fails. -/
theorem C42_panics_only {τ : Type} {cl : Classifier} (hl : Lawful cl) (scc : Str → Str → Str → SccRun) (orders : Nat → Files → Files)
    (horder : ∀ n fs, (orders n fs).Perm fs) (metas : GoMap Str (MetaCommit τ)) (results : List Result) {w : Fault}
    (h : codeByCommit cl scc orders metas 0 [] results = .error w) :
    ∃ r ∈ results, GoMap.get metas r.commit = none ∨
      (∃ c, GoMap.get metas r.commit = some c ∧
        ((∃ e ∈ c.files, e.2.renamed = true ∧ GoMap.get r.files e.2.renamedTo = none) ∨
         ∃ e ∈ r.files, LicenseName e.1 ∧ cl.licenseDb e.1 (e.2.lines.map (fun l => l.line ++ [10])).flatten = .failed)) := by
  have key : ∀ (results : List Result) (k : Nat) (cache : GoMap Str Str), CacheOk cl cache → codeByCommit cl scc orders metas k cache results = .error w →
      ∃ r ∈ results, GoMap.get metas r.commit = none ∨
      (∃ c, GoMap.get metas r.commit = some c ∧
        ((∃ e ∈ c.files, e.2.renamed = true ∧ GoMap.get r.files e.2.renamedTo = none) ∨
         ∃ e ∈ r.files, LicenseName e.1 ∧ cl.licenseDb e.1 (e.2.lines.map (fun l => l.line ++ [10])).flatten = .failed)) := by
    intro results
    induction results with
    | nil => intro k cache _ h; cases h
    | cons r rs ih =>
      intro k cache hc h
      simp only [codeByCommit] at h
      cases hm : GoMap.get metas r.commit with
      | none => exact ⟨r, by simp, Or.inl hm⟩
      | some c =>
        rw [hm] at h
        simp only at h
        cases hf : codeInfoFiles cl scc (orders k) metas cache r with
        | ok o =>
          obtain ⟨recs, c2⟩ := o
          rw [hf] at h
          simp only [bind, Except.bind] at h
          have hc2 : CacheOk cl c2 := by
            unfold codeInfoFiles at hf
            simp only at hf
            split at hf
            · exact (codeInfoLoop_spec hl scc metas _ _ hc hf).1
            · cases hf
          cases hb : codeByCommit cl scc orders metas (k + 1) c2 rs with
          | ok out' => rw [hb] at h; cases h
          | error w' =>
            rw [hb] at h
            injection h with h
            subst h
            obtain ⟨r', hr', h'⟩ := ih _ _ hc2 hb
            exact ⟨r', by simp [hr'], h'⟩
        | error w' =>
          refine ⟨r, by simp, Or.inr ⟨c, hm, ?_⟩⟩
          unfold codeInfoFiles at hf
          have hma : metaAt metas r.commit = c := by simp [metaAt, hm]
          simp only [hma] at hf
          split at hf
          · right
            have hloop : ∀ (es : Files) (cache : GoMap Str Str), CacheOk cl cache → codeInfoLoop cl scc metas c cache es = .error w' →
                ∃ e ∈ es, LicenseName e.1 ∧ cl.licenseDb e.1 (e.2.lines.map (fun l => l.line ++ [10])).flatten = .failed := by
              intro es
              induction es with
              | nil => intro _ _ h; cases h
              | cons e es ih2 =>
                intro cache hc hlp
                obtain ⟨path, b⟩ := e
                simp only [codeInfoLoop] at hlp
                cases he : codeInfoEntry cl scc metas c cache path b with
                | ok o =>
                  obtain ⟨r2, c3⟩ := o
                  rw [he] at hlp
                  simp only [bind, Except.bind] at hlp
                  obtain ⟨hc3, _⟩ := codeInfoEntry_spec hl scc metas c hc he
                  cases hlp2 : codeInfoLoop cl scc metas c c3 es with
                  | ok o2 => rw [hlp2] at hlp; cases hlp
                  | error w3 =>
                    rw [hlp2] at hlp
                    injection hlp with hlp
                    subst hlp
                    obtain ⟨e', h1, h2⟩ := ih2 c3 hc3 hlp2
                    exact ⟨e', by simp [h1], h2⟩
                | error w3 =>
                  refine ⟨(path, b), by simp, ?_⟩
                  unfold codeInfoEntry at he
                  split at he
                  · cases he
                  · split at he
                    · cases he
                    · simp only at he
                      split at he
                      · cases he
                      · cases hg : getInfo cl cache ⟨path, blameLines b, blameContent b⟩ with
                        | ok o => rw [hg] at he; simp only [bind, Except.bind] at he; split at he <;> cases he
                        | error w4 =>
                          rcases getInfo_cache hc ⟨path, blameLines b, blameContent b⟩ with ⟨w5, h1, h2⟩ | ⟨_, _, h1, _⟩
                          · have h3 : getInfos cl [] [⟨path, blameLines b, blameContent b⟩] = .error w5 := by
                              rw [C46_history_independent, List.mapM_cons, h2]; rfl
                            obtain ⟨a, ha, _, h4, h5⟩ := C45_panics_only_for_license_db hl _ h3
                            have : a = ⟨path, blameLines b, blameContent b⟩ := by simpa using ha
                            subst this
                            refine ⟨h4, ?_⟩
                            have hcontent : blameContent b = (b.lines.map (fun l => l.line ++ [10])).flatten := by
                              simp [blameContent, List.flatMap_def]
                            rw [← hcontent]
                            exact h5
                          · rw [h1] at hg; cases hg
            obtain ⟨e, h1, h2⟩ := hloop _ cache hc hf
            exact ⟨e, (horder k r.files).mem_iff.1 h1, h2⟩
          · left
            rename_i hren
            simp only [renamesInBlame, List.all_eq_true, Bool.or_eq_true, Bool.not_eq_true', Classical.not_forall] at hren
            obtain ⟨e, he, hn⟩ := hren
            refine ⟨e, he, ?_, ?_⟩
            · cases hb : e.2.renamed with
              | true => rfl
              | false => exact absurd (Or.inl hb) hn
            · cases hb : GoMap.get r.files e.2.renamedTo with
              | none => rfl
              | some v => exact absurd (Or.inr (by simp [GoMap.has, hb])) hn
  exact key results 0 [] (by intro p r hp; cases hp) h

/-- **C42.** A rename whose target is not among the files of the blame is a panic. -/
theorem C42_rename_without_blame_panics {τ : Type} (cl : Classifier) (scc : Str → Str → Str → SccRun) (order : Files → Files)
    (metas : GoMap Str (MetaCommit τ)) (cache : GoMap Str Str) (r : Result) {c : MetaCommit τ} (hc : GoMap.get metas r.commit = some c)
    {e : Str × CommitFile} (he : e ∈ c.files) (hren : e.2.renamed = true) (hno : GoMap.get r.files e.2.renamedTo = none) :
    codeInfoFiles cl scc order metas cache r = .error (.panic "File was in stats output, but not in blame") := by
  unfold codeInfoFiles
  have hma : metaAt metas r.commit = c := by simp [metaAt, hc]
  simp only [hma]
  rw [if_neg]
  intro hall
  simp only [renamesInBlame, List.all_eq_true] at hall
  have := hall e he
  simp [hren, GoMap.has, hno] at this

/-! ### Examples -/

/-- A line counter that calls every line that begins with a slash a comment, every other one code. -/
def exScc (_ _ : Str) (content : Str) : SccRun :=
  go 1 (rawLines content)
where
  go (n : Int) : List Str → SccRun
    | [] => .done { lines := n - 1 }
    | l :: ls => .call n (if startsWith l b!"/" then .comment else .code) (fun b => if b then go (n + 1) ls else .done { lines := n })

def exCodeMeta (sha name : Str) (files : GoMap Str CommitFile) : MetaCommit Nat := { sha := sha, ordinal := 1, authorName := name, date := some 7, files := files }

def exCodeMetas : GoMap Str (MetaCommit Nat) :=
  [(b!"c2", exCodeMeta b!"c2" b!"bob" [(b!"a.go", { filename := b!"a.go", status := .modified }), (b!"g.go", { filename := b!"g.go", status := .added }),
      (b!"old", { filename := b!"old", status := .removed }), (b!"LICENSE", { filename := b!"LICENSE", status := .added })]),
   (b!"c1", exCodeMeta b!"c1" b!"ann" [])]

def exResult : Result where
  commit := b!"c2"
  files := [(b!"a.go", ⟨b!"c2", [⟨b!"// one", b!"c1"⟩, ⟨b!"x", b!"c2"⟩], false⟩), (b!"g.go", ⟨b!"c2", [⟨b!"// GENERATED", b!"c2"⟩, ⟨b!"y", b!"c2"⟩], false⟩),
    (b!"old", ⟨b!"c2", [], false⟩), (b!"LICENSE", ⟨b!"c2", [], false⟩), (b!"nometa", ⟨b!"c2", [], false⟩)]

/-- A run with a normal, a generated, a removed and a licence file, and one without metadata. -/
example : ((codeByCommit (exCl false) exScc (fun _ fs => fs.reverse) exCodeMetas 0 [] [exResult]).toOption.getD []).map
    (fun o => (o.1.sha, o.2.map (fun r => (r.filename, r.skipped, r.lines.map (fun l => (l.sha, l.name, l.comment, l.code))))))
  = [(b!"c2", [(b!"LICENSE", b!"File is a license file", []), (b!"old", b!"File was removed", []),
      (b!"g.go", b!"file was a generated file", [(b!"c2", b!"bob", true, false), (b!"c2", b!"bob", false, false)]),
      (b!"a.go", [], [(b!"c1", b!"ann", true, false), (b!"c2", b!"bob", false, true)])])] := rfl

example : GoMap.WF exResult.files := by decide

/-- **C43 (finding).** In an incremental run the metadata cover only the new commits, while the blame still has lines of older ones: the same file, in the same
commit, with the same blame, loses the authors of its old lines. -/
theorem C43_incremental_loses_authors : ∃ (metas : GoMap Str (MetaCommit Nat)) (r : Result) (old : Str),
    old ≠ r.commit ∧ (GoMap.get metas old).isSome ∧
    (∃ out rec x, codeByCommit (exCl false) exScc (fun _ fs => fs) metas 0 [] [r] = .ok out ∧ Emitted out 0 rec ∧ x ∈ rec.lines ∧ x.sha = old ∧ x.name = b!"ann") ∧
    (∃ out rec x, codeByCommit (exCl false) exScc (fun _ fs => fs) (GoMap.del metas old) 0 [] [r] = .ok out ∧ Emitted out 0 rec ∧ x ∈ rec.lines ∧ x.sha = old ∧
      x.name = [] ∧ x.email = [] ∧ x.date = none) := by
  refine ⟨exCodeMetas, exResult, b!"c1", by decide, by decide, ⟨_, _, _, rfl, ⟨_, _, rfl, List.mem_cons_self⟩, List.mem_cons_self, rfl, rfl⟩,
    ⟨_, _, _, rfl, ⟨_, _, rfl, List.mem_cons_self⟩, List.mem_cons_self, rfl, rfl, rfl, rfl⟩⟩

end Ripsrc
