import Verif.Props.Ignore
import Verif.Props.GitBlame
/-!
# The generator of the exclusion list (C69)
-/
namespace Ripsrc
open Spec

/-! ## Lines -/

theorem trimSpace_head {c : UInt8} {u t : Str} (hc : isSpaceByte c = false) (hu : ∀ b ∈ c :: u, b < 128) : ∃ t', trimSpace (c :: (u ++ 35 :: t)) = c :: (u ++ 35 :: t') := by
  have hno : ∀ w ∈ spaceRunes, c ∉ w := by
    intro w hw hm
    have hc128 := hu c (by simp)
    have := ascii_long c hc128 w hw hm
    rw [this] at hw
    rw [ascii_space c hc128 hw] at hc
    cases hc
  unfold trimSpace
  rw [trimFrom_id (s := c :: (u ++ 35 :: t))]
  · have hrev : (c :: (u ++ 35 :: t)).reverse = t.reverse ++ 35 :: (c :: u).reverse := by simp
    rw [hrev]
    have h1 : trimFrom (spaceRunes.map List.reverse) 0 (35 :: (c :: u).reverse) = 35 :: (c :: u).reverse := by
      refine trimFrom_id (fun w hw hp => ?_)
      cases w with
      | nil => exact nil_runes_rev hw
      | cons x w =>
        obtain ⟨r, hr⟩ := hp
        rw [List.cons_append] at hr
        obtain rfl := (List.cons.inj hr).1
        have := ascii_long_rev 35 (by decide) _ hw (by simp)
        rw [this] at hw
        exact absurd hw (by decide)
    rcases trimFrom_append (ws := spaceRunes.map List.reverse) (v := 35 :: (c :: u).reverse) (fun w hw d hd hm => by
      refine ascii_long_rev d ?_ w hw hm
      rcases List.mem_cons.1 hd with rfl | hd
      · decide
      · exact hu d (List.mem_reverse.1 hd)) t.reverse 0 (Nat.zero_le _) with ⟨h2, h3⟩ | ⟨h2, h3⟩
    · rw [h3, h1]; exact ⟨[], by simp⟩
    · rw [h3, List.reverse_append]; exact ⟨_, by simp; rfl⟩
  · intro w hw hp
    cases w with
    | nil => exact nil_runes hw
    | cons x w =>
      obtain ⟨r, hr⟩ := hp
      rw [List.cons_append] at hr
      rw [(List.cons.inj hr).1] at hw
      exact hno _ hw (by simp)

theorem text_bytes {p : Pattern} (h : PatternOk p) : ∀ b ∈ p.text, b < 128 ∧ b ≠ 35 ∧ b ≠ 10 := by
  intro b hb
  unfold Pattern.text at hb
  rcases List.mem_append.1 hb with hb | hb
  · rcases List.mem_append.1 hb with hb | hb
    · split at hb
      · rw [List.mem_singleton.1 hb]; decide
      · cases hb
    · obtain ⟨c, hc, rfl⟩ := List.mem_map.1 hb
      cases c with
      | anything => simp only [PatChar.byte]; decide
      | lit b =>
        obtain ⟨h1, h2⟩ := h.plain b hc
        refine ⟨h1, ?_, ?_⟩
        · rintro rfl; exact h2 (by decide)
        · rintro rfl; exact h2 (by decide)
  · split at hb
    · rw [List.mem_singleton.1 hb]; decide
    · cases hb

theorem blank_white {s : Str} (h : Blank s) : ∀ b ∈ s, isSpaceByte b = true := by
  intro b hb
  rcases h b hb with rfl | rfl <;> decide

/-- The line of a pattern, and every other line. -/
theorem ignoreLine_spec {l : PatLine} (h : PatLineOk l) : ignoreLine l.text = l.pattern?.map (fun p => ignoreFormat p.text) := by
  cases l with
  | blank ws =>
    simp only [PatLine.text, PatLine.pattern?, Option.map_none, ignoreLine, trimSpace_white (blank_white h)]
  | comment ws mark t =>
    obtain ⟨h1, h2, h3⟩ := h
    obtain ⟨u, hu⟩ := trimSpace_keeps ws t (c := mark) (blank_white h1) (by rcases h2 with rfl | rfl <;> decide)
    simp only [PatLine.text, PatLine.pattern?, Option.map_none, ignoreLine, hu]
    rw [if_pos (by rcases h2 with rfl | rfl <;> simp)]
  | pattern ws p ws' remark =>
    obtain ⟨h1, h2, h3, h4⟩ := h
    have hb := text_bytes h2
    obtain ⟨c, t, hct⟩ := List.exists_cons_of_ne_nil h2.first.1
    have hcs : isSpaceByte c = false := by
      cases hs : isSpaceByte c with
      | false => rfl
      | true => exact absurd ⟨t, by rw [hct]; rfl⟩ (h2.trimmed [c] (spaceByte_mem hs)).1
    have hc : ¬ (c = 35 ∨ c = 33 ∨ c = 9) := by
      rintro (rfl | rfl | rfl)
      · exact (hb 35 (by rw [hct]; simp)).2.1 rfl
      · exact h2.first.2 (by rw [hct]; rfl)
      · cases hcs
    have hidx : p.text.idxOf 35 = p.text.length := List.idxOf_eq_length (fun hm => (hb 35 hm).2.1 rfl)
    simp only [PatLine.pattern?, Option.map_some]
    cases remark with
    | none =>
      have ht : trimSpace (PatLine.pattern ws p ws' none).text = p.text := by
        simp only [PatLine.text, List.append_nil, List.append_assoc]
        rw [trimSpace_left (blank_white h1), trimSpace_append (blank_white h3), trimSpace_trimmed h2.trimmed]
      unfold ignoreLine
      rw [ht]
      rw [hct] at hidx ⊢
      simp only [if_neg hc, hidx]
      rw [if_neg (by omega)]
    | some r =>
      obtain ⟨r', hr'⟩ := trimSpace_head (c := c) (u := t ++ ws') (t := r) hcs (by
        intro b hm
        rw [← List.cons_append, ← hct] at hm
        rcases List.mem_append.1 hm with hm | hm
        · exact (hb b hm).1
        · exact space_ascii b (blank_white h3 b hm))
      have ht : trimSpace (PatLine.pattern ws p ws' (some r)).text = (p.text ++ ws') ++ 35 :: r' := by
        simp only [PatLine.text, List.append_assoc]
        rw [trimSpace_left (blank_white h1), hct]
        simpa using hr'
      have hidx2 : ((p.text ++ ws') ++ 35 :: r').idxOf 35 = (p.text ++ ws').length := by
        rw [List.idxOf_append, if_neg]
        · simp
        · intro hm
          rcases List.mem_append.1 hm with hm | hm
          · exact (hb 35 hm).2.1 rfl
          · rcases h3 35 hm with h | h <;> exact absurd h (by decide)
      unfold ignoreLine
      rw [ht]
      have hcons : (p.text ++ ws') ++ 35 :: r' = c :: (t ++ ws' ++ 35 :: r') := by rw [hct]; simp
      have htake : ((p.text ++ ws') ++ 35 :: r').take (p.text ++ ws').length = p.text ++ ws' := List.take_left
      rw [hcons] at hidx2 htake ⊢
      simp only [if_neg hc, hidx2, htake]
      rw [if_pos ⟨by rw [hct]; simp, by rw [← hcons]; simp⟩, trimSpace_append (blank_white h3), trimSpace_trimmed h2.trimmed]

theorem patLine_noNL {l : PatLine} (h : PatLineOk l) : NoNL l.text := by
  have hbl : ∀ s : Str, Blank s → (10 : UInt8) ∉ s := fun s hs hm => by rcases hs 10 hm with h | h <;> exact absurd h (by decide)
  cases l with
  | blank ws => exact hbl ws h
  | comment ws mark t =>
    obtain ⟨h1, h2, h3⟩ := h
    simp only [PatLine.text, NoNL, List.mem_append, List.mem_cons, not_or]
    refine ⟨hbl ws h1, ?_, h3⟩
    rcases h2 with rfl | rfl <;> decide
  | pattern ws p ws' remark =>
    obtain ⟨h1, h2, h3, h4⟩ := h
    simp only [PatLine.text, NoNL, List.mem_append, not_or]
    refine ⟨⟨⟨hbl ws h1, fun hm => (text_bytes h2 10 hm).2.2 rfl⟩, hbl ws' h3⟩, ?_⟩
    cases remark with
    | none => simp
    | some t => simpa [NoNL] using h4 t rfl

theorem completeLines_unlines (ls : List Str) (rest : Str) (h : ∀ l ∈ ls, NoNL l) (hr : NoNL rest) : completeLines (unlines ls ++ rest) = ls := by
  unfold completeLines
  have : splitByte 10 (unlines ls ++ rest) = ls ++ [rest] := by
    induction ls with
    | nil => exact splitByte_last 10 rest hr
    | cons l ls ih =>
      rw [unlines_cons, List.append_assoc, List.cons_append, splitByte_append 10 _ _ (h l (by simp)), ih (fun x hx => h x (by simp [hx]))]
      rfl
  rw [this, List.dropLast_concat]

theorem parseFile_spec (ls : List PatLine) (hok : ∀ l ∈ ls, PatLineOk l) (rest : Str) (hr : NoNL rest) :
    ignoreParseFile (unlines (ls.map PatLine.text) ++ rest) = (ls.filterMap PatLine.pattern?).map (fun p => ignoreFormat p.text) := by
  unfold ignoreParseFile
  rw [completeLines_unlines _ rest (by
    intro l hl
    obtain ⟨x, hx, rfl⟩ := List.mem_map.1 hl
    exact patLine_noNL (hok x hx)) hr]
  induction ls with
  | nil => rfl
  | cons l ls ih =>
    have ih := ih (fun x hx => hok x (by simp [hx]))
    rw [List.map_cons, List.filterMap_cons, ignoreLine_spec (hok l (by simp)), List.filterMap_cons]
    cases l.pattern? with
    | none => simpa using ih
    | some p => simpa using ih

/-! ## Parsing the generated expression -/

theorem exists_cons_iff {α : Type} {p : α → Prop} {a : α} {l : List α} : (∃ x ∈ a :: l, p x) ↔ p a ∨ ∃ x ∈ l, p x := by simp

theorem seqOf_cons (r : Rx) (rs : List Rx) (pre mid post : Str) : Matches (seqOf (r :: rs)) pre mid post ↔
    ∃ x y, mid = x ++ y ∧ Matches r pre x (y ++ post) ∧ Matches (seqOf rs) (pre ++ x) y post := by
  cases rs with
  | nil =>
    simp only [seqOf]
    constructor
    · intro h; exact ⟨mid, [], by simp, by simpa using h, .eps⟩
    · rintro ⟨x, y, rfl, h1, h2⟩
      cases h2
      simpa using h1
  | cons q rs =>
    simp only [seqOf]
    constructor
    · intro h
      cases h with
      | seq h1 h2 => exact ⟨_, _, rfl, h1, h2⟩
    · rintro ⟨x, y, rfl, h1, h2⟩
      exact .seq h1 h2

theorem altOf_iff (rs : List Rx) (hne : rs ≠ []) (pre mid post : Str) : Matches (altOf rs) pre mid post ↔ ∃ r ∈ rs, Matches r pre mid post := by
  induction rs with
  | nil => exact absurd rfl hne
  | cons r rs ih =>
    cases rs with
    | nil => simp [altOf]
    | cons q rs =>
      simp only [altOf]
      rw [exists_cons_iff, ← ih (by simp)]
      constructor
      · intro h
        cases h with
        | altL h => exact .inl h
        | altR h => exact .inr h
      · rintro (h | h)
        · exact .altL h
        · exact .altR h

/-- The expression for a character of a pattern. -/
def fmtChar : PatChar → Str
  | .lit b => if b = 46 then b!"\\." else [b]
  | .anything => b!"(.*?)"

def fmtPattern (p : Pattern) : Str := (if p.atStart then b!"^" else []) ++ (p.chars.flatMap fmtChar ++ (if p.atEnd then b!"$" else []))

theorem format_text {p : Pattern} (h : PatternOk p) : ignoreFormat p.text = fmtPattern p := by
  have hchars : ∀ cs : List PatChar, (∀ b, PatChar.lit b ∈ cs → b < 128 ∧ b ∉ special) → ignoreFormat (cs.map PatChar.byte) = cs.flatMap fmtChar := by
    intro cs
    induction cs with
    | nil => intro _; rfl
    | cons c cs ih =>
      intro hc
      have ih := ih (fun b hb => hc b (by simp [hb]))
      unfold ignoreFormat at ih ⊢
      simp only [List.map_cons, List.flatMap_cons, List.flatMap_append, ih]
      congr 1
      cases c with
      | anything => rfl
      | lit b =>
        by_cases hb : b = 46
        · subst hb; rfl
        · have : b ≠ 42 := by rintro rfl; exact (hc 42 (by simp)).2 (by decide)
          show List.flatMap _ (if b = 46 then b!"\\." else [b]) = if b = 46 then b!"\\." else [b]
          rw [if_neg hb]
          simp [this]
  have happ : ∀ a b : Str, ignoreFormat (a ++ b) = ignoreFormat a ++ ignoreFormat b := by intro a b; simp [ignoreFormat]
  unfold Pattern.text fmtPattern
  rw [happ, happ, hchars p.chars h.plain, List.append_assoc]
  congr 1
  · cases p.atStart <;> rfl
  · cases p.atEnd <;> rfl

/-- Outside of escapes and classes. -/
def RxParser.at (alts cur : List Rx) (idx : Nat) (outer : List Frame) (g : Nat) : RxParser := ⟨⟨alts, cur, idx⟩, outer, g, false, none⟩

theorem step_lit {b : UInt8} (hb : b ∉ special) (h46 : b ≠ 46) (alts cur : List Rx) (idx : Nat) (outer : List Frame) (g : Nat) :
    (RxParser.at alts cur idx outer g).step b = some (RxParser.at alts (.one (.lit b) :: cur) idx outer g) := by
  have h : ∀ c ∈ special, b ≠ c := fun c hc hbc => hb (hbc ▸ hc)
  simp only [RxParser.step, RxParser.at, Bool.false_eq_true, if_false, RxParser.push]
  rw [if_neg (h 92 (by decide)), if_neg (h 91 (by decide)), if_neg (h 40 (by decide)), if_neg (h 41 (by decide)), if_neg (h 124 (by decide)), if_neg h46,
    if_neg (h 94 (by decide)), if_neg (h 36 (by decide)), if_neg (h 63 (by decide)), if_neg (h 42 (by decide)), if_neg (h 43 (by decide)), if_neg (h 123 (by decide))]

theorem fold_append (p q : RxParser) (a b : Str) (h : a.foldlM RxParser.step p = some q) : (a ++ b).foldlM RxParser.step p = b.foldlM RxParser.step q := by
  rw [List.foldlM_append, h]; rfl

theorem lit_iff (b : UInt8) (pre mid post : Str) : Matches (.one (.lit b)) pre mid post ↔ mid = [b] := by
  constructor
  · intro h
    cases h with
    | one hc =>
      obtain ⟨r, hr, h1, h2⟩ := hc
      rw [List.mem_singleton.1 hr] at h1 h2
      rw [UInt8.le_antisymm h2 h1]
  · rintro rfl
    exact .one ⟨(b, b), by simp [Cls.lit], UInt8.le_refl _, UInt8.le_refl _⟩

theorem dots_iff (n : Nat) (pre mid post : Str) : Matches (.group n (.star .dot false)) pre mid post ↔ 10 ∉ mid := by
  constructor
  · intro h
    cases h with
    | group h =>
      cases h with
      | star h =>
        intro hm
        have := h 10 hm
        simp only [InCls, Cls.dot, if_true] at this
        rcases this (10, 10) (by simp) with h | h <;> exact absurd h (by decide)
  · intro h
    refine .group (.star (fun b hb => ?_))
    simp only [InCls, Cls.dot, if_true, List.mem_singleton, forall_eq]
    have hne : b ≠ 10 := fun e => h (e ▸ hb)
    rcases UInt8.lt_or_lt_of_ne hne with h | h
    · exact .inl h
    · exact .inr h

/-- Parsing the characters of a pattern. -/
theorem parse_chars (cs : List PatChar) (hc : ∀ b, PatChar.lit b ∈ cs → b ∉ special) (alts : List Rx) (idx : Nat) (outer : List Frame) : ∀ (cur : List Rx) (g : Nat),
    ∃ rs g', (cs.flatMap fmtChar).foldlM RxParser.step (RxParser.at alts cur idx outer g) = some (RxParser.at alts (rs.reverse ++ cur) idx outer g') ∧
      ∀ pre mid post, Matches (seqOf rs) pre mid post ↔ CharsMatch cs mid := by
  induction cs with
  | nil =>
    intro cur g
    refine ⟨[], g, rfl, fun pre mid post => ?_⟩
    constructor
    · intro h; cases h; exact .nil
    · intro h; cases h; exact .eps
  | cons c cs ih =>
    intro cur g
    have ih := ih (fun b hb => hc b (by simp [hb]))
    cases c with
    | lit b =>
      have hstep : (fmtChar (.lit b)).foldlM RxParser.step (RxParser.at alts cur idx outer g) = some (RxParser.at alts (.one (.lit b) :: cur) idx outer g) := by
        simp only [fmtChar]
        by_cases h46 : b = 46
        · subst h46; rfl
        · rw [if_neg h46, List.foldlM_cons, step_lit (hc b (by simp)) h46]; rfl
      obtain ⟨rs, g', h1, h2⟩ := ih (.one (.lit b) :: cur) g
      refine ⟨.one (.lit b) :: rs, g', ?_, fun pre mid post => ?_⟩
      · rw [List.flatMap_cons, fold_append _ _ _ _ hstep, h1]
        simp
      · rw [seqOf_cons]
        constructor
        · rintro ⟨x, y, rfl, h3, h4⟩
          rw [(lit_iff b _ _ _).1 h3]
          exact .lit ((h2 _ _ _).1 h4)
        · intro h
          cases h with
          | lit h => exact ⟨[b], _, rfl, (lit_iff b _ _ _).2 rfl, (h2 _ _ _).2 h⟩
    | anything =>
      have hstep : (fmtChar .anything).foldlM RxParser.step (RxParser.at alts cur idx outer g) =
          some (RxParser.at alts (.group (g + 1) (.star .dot false) :: cur) idx outer (g + 1)) := rfl
      obtain ⟨rs, g', h1, h2⟩ := ih (.group (g + 1) (.star .dot false) :: cur) (g + 1)
      refine ⟨.group (g + 1) (.star .dot false) :: rs, g', ?_, fun pre mid post => ?_⟩
      · rw [List.flatMap_cons, fold_append _ _ _ _ hstep, h1]
        simp
      · rw [seqOf_cons]
        constructor
        · rintro ⟨x, y, rfl, h3, h4⟩
          exact .anything ((dots_iff _ _ _ _).1 h3) ((h2 _ _ _).1 h4)
        · intro h
          cases h with
          | anything hx h => exact ⟨_, _, rfl, (dots_iff _ _ _ _).2 hx, (h2 _ _ _).2 h⟩

theorem seqOf_snoc_eol (rs : List Rx) (pre mid post : Str) : Matches (seqOf (rs ++ [.eol])) pre mid post ↔ Matches (seqOf rs) pre mid post ∧ post = [] := by
  induction rs generalizing pre mid with
  | nil =>
    simp only [List.nil_append, seqOf]
    constructor
    · intro h; cases h; exact ⟨.eps, rfl⟩
    · rintro ⟨h, rfl⟩; cases h; exact .eol
  | cons r rs ih =>
    rw [List.cons_append, seqOf_cons, seqOf_cons]
    constructor
    · rintro ⟨x, y, rfl, h1, h2⟩
      obtain ⟨h2, h3⟩ := (ih _ _).1 h2
      exact ⟨⟨x, y, rfl, h1, h2⟩, h3⟩
    · rintro ⟨⟨x, y, rfl, h1, h2⟩, h3⟩
      exact ⟨x, y, rfl, h1, (ih _ _).2 ⟨h2, h3⟩⟩

/-- Parsing a pattern. -/
theorem parse_pattern {p : Pattern} (h : PatternOk p) (alts : List Rx) (idx : Nat) (outer : List Frame) (g : Nat) :
    ∃ rs g', (fmtPattern p).foldlM RxParser.step (RxParser.at alts [] idx outer g) = some (RxParser.at alts rs.reverse idx outer g') ∧
      ∀ pre mid post, Matches (seqOf rs) pre mid post ↔ (p.atStart = true → pre = []) ∧ (p.atEnd = true → post = []) ∧ CharsMatch p.chars mid := by
  have hend : ∀ (cur : List Rx) (g : Nat), ∃ rs g', (p.chars.flatMap fmtChar ++ (if p.atEnd then b!"$" else [])).foldlM RxParser.step (RxParser.at alts cur idx outer g) =
      some (RxParser.at alts (rs.reverse ++ cur) idx outer g') ∧ ∀ pre mid post, Matches (seqOf rs) pre mid post ↔ (p.atEnd = true → post = []) ∧ CharsMatch p.chars mid := by
    intro cur g
    obtain ⟨rs, g', h1, h2⟩ := parse_chars p.chars (fun b hb => (h.plain b hb).2) alts idx outer cur g
    cases hE : p.atEnd with
    | false =>
      refine ⟨rs, g', ?_, fun pre mid post => ?_⟩
      · simpa using h1
      · rw [h2]; simp
    | true =>
      refine ⟨rs ++ [.eol], g', ?_, fun pre mid post => ?_⟩
      · rw [fold_append _ _ _ _ h1]
        simp
        rfl
      · rw [seqOf_snoc_eol, h2]
        simp [and_comm]
  cases hS : p.atStart with
  | false =>
    obtain ⟨rs, g', h1, h2⟩ := hend [] g
    refine ⟨rs, g', ?_, fun pre mid post => ?_⟩
    · unfold fmtPattern
      rw [hS]
      simpa using h1
    · rw [h2]; simp
  | true =>
    obtain ⟨rs, g', h1, h2⟩ := hend [.bol] g
    refine ⟨.bol :: rs, g', ?_, fun pre mid post => ?_⟩
    · unfold fmtPattern
      rw [hS, if_pos rfl]
      refine (fold_append _ (RxParser.at alts [.bol] idx outer g) _ _ rfl).trans ?_
      rw [h1]
      simp
    · rw [seqOf_cons]
      constructor
      · rintro ⟨x, y, rfl, h3, h4⟩
        cases h3
        obtain ⟨h5, h6⟩ := (h2 _ _ _).1 h4
        exact ⟨fun _ => rfl, h5, h6⟩
      · rintro ⟨h3, h4, h5⟩
        have := h3 rfl
        subst this
        exact ⟨[], mid, rfl, .bol, (h2 _ _ _).2 ⟨h4, h5⟩⟩

/-- Parsing the alternatives. -/
theorem parse_alts (ps : List Pattern) (hne : ps ≠ []) (h : ∀ p ∈ ps, PatternOk p) (idx : Nat) (outer : List Frame) : ∀ (alts : List Rx) (g : Nat),
    ∃ as rs g', (joinWith b!"|" (ps.map fmtPattern)).foldlM RxParser.step (RxParser.at alts [] idx outer g) = some (RxParser.at (alts ++ as) rs.reverse idx outer g') ∧
      ∀ pre mid post, (∃ r ∈ as ++ [seqOf rs], Matches r pre mid post) ↔
        ∃ p ∈ ps, (p.atStart = true → pre = []) ∧ (p.atEnd = true → post = []) ∧ CharsMatch p.chars mid := by
  induction ps with
  | nil => exact absurd rfl hne
  | cons p ps ih =>
    intro alts g
    obtain ⟨rs, g', h1, h2⟩ := parse_pattern (h p (by simp)) alts idx outer g
    cases ps with
    | nil =>
      refine ⟨[], rs, g', ?_, fun pre mid post => ?_⟩
      · simpa [joinWith] using h1
      · simp [h2]
    | cons q ps =>
      obtain ⟨as, rs', g'', h3, h4⟩ := ih (by simp) (fun x hx => h x (by simp [hx])) (alts ++ [seqOf rs]) g'
      refine ⟨seqOf rs :: as, rs', g'', ?_, fun pre mid post => ?_⟩
      · have : joinWith b!"|" ((p :: q :: ps).map fmtPattern) = fmtPattern p ++ (124 :: joinWith b!"|" ((q :: ps).map fmtPattern)) := by simp [joinWith]
        rw [this, fold_append _ _ _ _ h1, List.foldlM_cons]
        have hbar : (RxParser.at alts rs.reverse idx outer g').step 124 = some (RxParser.at (alts ++ [seqOf rs]) [] idx outer g') := by
          have : (RxParser.at alts rs.reverse idx outer g').step 124 = some (RxParser.at (alts ++ [seqOf rs.reverse.reverse]) [] idx outer g') := rfl
          rw [this, List.reverse_reverse]
        rw [hbar]
        refine (show _ = _ from h3).trans ?_
        simp
      · rw [List.cons_append, exists_cons_iff, h4, h2]
        simp only [exists_cons_iff]

/-- The whole expression, wherever it begins. -/
theorem parse_regstr (ps : List Pattern) (hne : ps ≠ []) (h : ∀ p ∈ ps, PatternOk p) (cur : List Rx) (g : Nat) :
    ∃ r g', (b!"(" ++ joinWith b!"|" (ps.map fmtPattern) ++ b!")").foldlM RxParser.step (RxParser.at [] cur 0 [] g) = some (RxParser.at [] (r :: cur) 0 [] g') ∧
      ∀ path, Occurs r path ↔ ∃ p ∈ ps, p.Covers path := by
  obtain ⟨as, rs, g', h1, h2⟩ := parse_alts ps hne h (g + 1) [⟨[], cur, 0⟩] [] (g + 1)
  refine ⟨.group (g + 1) (altOf (as ++ [seqOf rs])), g', ?_, fun path => ?_⟩
  · rw [List.append_assoc]
    refine (fold_append _ (RxParser.at [] [] (g + 1) [⟨[], cur, 0⟩] (g + 1)) _ _ rfl).trans ?_
    rw [fold_append _ _ _ _ h1]
    have : (b!")").foldlM RxParser.step (RxParser.at ([] ++ as) rs.reverse (g + 1) [⟨[], cur, 0⟩] g') =
        some (RxParser.at [] (.group (g + 1) (altOf ([] ++ as ++ [seqOf rs.reverse.reverse])) :: cur) 0 [] g') := rfl
    rw [this, List.reverse_reverse]
    rfl
  · unfold Occurs Pattern.Covers
    constructor
    · rintro ⟨pre, mid, post, rfl, hm⟩
      cases hm with
      | group hm =>
        obtain ⟨p, hp, h3⟩ := (h2 _ _ _).1 ((altOf_iff _ (by simp) _ _ _).1 hm)
        exact ⟨p, hp, pre, mid, post, rfl, h3⟩
    · rintro ⟨p, hp, pre, mid, post, rfl, h3⟩
      exact ⟨pre, mid, post, rfl, .group ((altOf_iff _ (by simp) _ _ _).2 ((h2 _ _ _).2 ⟨p, hp, h3⟩))⟩

/-- **C69** For every file of plain patterns, comments and blank lines (with at least one pattern), the generator writes a Go file with an expression that compiles and that matches a path
exactly if one of the patterns covers it. What follows the last newline is ignored. -/
theorem C69_generator (ls : List PatLine) (hok : ∀ l ∈ ls, PatLineOk l) (rest : Str) (hr : NoNL rest) (hne : ls.filterMap PatLine.pattern? ≠ []) :
    ∃ expr r, genIgnore (fun t => (rxParse t).isSome) (unlines (ls.map PatLine.text) ++ rest) =
        .ok (b!"// DO NOT EDIT -- generated code\n\npackage fileinfo\n\nimport \"regexp\"\n\nvar ignorePatterns = regexp.MustCompile(`" ++ (expr ++ b!"`)\n")) ∧
      rxParse expr = some r ∧ ∀ path, r.matchString path = true ↔ ∃ p ∈ ls.filterMap PatLine.pattern?, p.Covers path := by
  have hps : ∀ p ∈ ls.filterMap PatLine.pattern?, PatternOk p := by
    intro p hp
    obtain ⟨l, hl, hlp⟩ := List.mem_filterMap.1 hp
    have := hok l hl
    cases l with
    | blank => cases hlp
    | comment => cases hlp
    | pattern ws q ws' remark => cases hlp; exact this.2.1
  have hreg : ignoreRegstr (unlines (ls.map PatLine.text) ++ rest) = b!"(" ++ joinWith b!"|" ((ls.filterMap PatLine.pattern?).map fmtPattern) ++ b!")" := by
    unfold ignoreRegstr
    rw [parseFile_spec ls hok rest hr]
    congr 3
    exact List.map_congr_left (fun p hp => format_text (hps p hp))
  obtain ⟨r, g', h1, h2⟩ := parse_regstr _ hne hps [] 0
  obtain ⟨r', g'', h1', -⟩ := parse_regstr _ hne hps [.one (.lit 96)] 0
  have hparse : rxParse (ignoreRegstr (unlines (ls.map PatLine.text) ++ rest)) = some r := by
    unfold rxParse
    rw [hreg]
    refine (congrArg (fun o => Option.bind o RxParser.finish) h1).trans ?_
    rfl
  have hquoted : (rxParse (b!"`" ++ ignoreRegstr (unlines (ls.map PatLine.text) ++ rest) ++ b!"`")).isSome = true := by
    unfold rxParse
    rw [hreg, List.append_assoc, fold_append _ (RxParser.at [] [.one (.lit 96)] 0 [] 0) _ _ rfl, fold_append _ _ _ _ h1']
    rfl
  refine ⟨_, r, ?_, hparse, fun path => (matchString_iff r path).trans (h2 path)⟩
  unfold genIgnore
  simp only [hquoted, if_true]
  congr 1
  simp

/-- `vendor/`, `^doc/` followed by anything and `.md` at the end. -/
def exPatLines : List PatLine :=
  [
   .comment [] 35 b!" go", .blank [], .pattern [] { chars := b!"vendor/".map .lit } [] none,
   .pattern b!" " { atStart := true, chars := b!"doc/".map .lit ++ .anything :: b!".md".map .lit, atEnd := true } b!"\t" (some b!" docs")]

theorem exPatLines_ok : ∀ l ∈ exPatLines, PatLineOk l := by
  intro l hl
  simp only [exPatLines, List.mem_cons, List.not_mem_nil, or_false] at hl
  rcases hl with rfl | rfl | rfl | rfl
  · exact ⟨by simp [Blank], .inl rfl, by decide⟩
  · simp [PatLineOk, Blank]
  · refine ⟨by simp [Blank], ⟨?_, by decide, by decide⟩, by simp [Blank], by simp⟩
    intro b hb
    simp only [List.mem_map, PatChar.lit.injEq, exists_eq_right] at hb
    revert b
    decide
  · refine ⟨by simp [Blank], ⟨?_, by decide, by decide⟩, by simp [Blank], ?_⟩
    · intro b hb
      simp only [List.mem_append, List.mem_cons, List.mem_map, PatChar.lit.injEq, exists_eq_right, reduceCtorEq, false_or, List.not_mem_nil, or_false] at hb
      rcases hb with (rfl | rfl | rfl | rfl) | rfl | rfl | rfl <;> decide
    · intro t ht; cases ht; decide

example : unlines (exPatLines.map PatLine.text) = b!"# go\n\nvendor/\n ^doc/*.md$\t# docs\n" ∧
    ignoreRegstr (unlines (exPatLines.map PatLine.text) ++ b!"lost") = b!"(vendor/|^doc/(.*?)\\.md$)" := by decide

/-- `doc/a/b.md` is covered, `src/doc/b.md` is not. -/
example : ∃ expr r, rxParse expr = some r ∧ r.matchString b!"doc/a/b.md" = true ∧ r.matchString b!"src/doc/b.md" = false := by
  obtain ⟨expr, r, -, h2, h3⟩ := C69_generator exPatLines exPatLines_ok [] (by decide) (by simp [exPatLines, PatLine.pattern?])
  refine ⟨expr, r, h2, ?_, ?_⟩
  · refine (h3 _).2 ⟨_, List.mem_filterMap.2 ⟨_, List.mem_of_getElem? (i := 3) rfl, rfl⟩, [], b!"doc/a/b.md", [], rfl, fun _ => rfl, fun _ => rfl, ?_⟩
    exact .lit (.lit (.lit (.lit (.anything (x := b!"a/b") (by decide) (.lit (.lit (.lit .nil)))))))
  · cases hm : r.matchString b!"src/doc/b.md" with
    | false => rfl
    | true =>
      obtain ⟨p, hp, pre, mid, post, e, h4, h5, h6⟩ := (h3 _).1 hm
      simp only [exPatLines, List.filterMap_cons, PatLine.pattern?, List.filterMap_nil, List.mem_cons, List.not_mem_nil, or_false] at hp
      rcases hp with rfl | rfl
      · exfalso
        have hmid : mid = b!"vendor/" := by
          cases h6 with | lit h => cases h with | lit h => cases h with | lit h => cases h with | lit h => cases h with | lit h => cases h with | lit h => cases h with
            | lit h => cases h; rfl
        have : b!"vendor/" <:+: b!"src/doc/b.md" := ⟨pre, post, by rw [e, hmid]⟩
        exact absurd this (by decide)
      · exfalso
        rw [h4 rfl, h5 rfl, List.nil_append, List.append_nil] at e
        rw [← e] at h6
        cases h6

/-- A file without patterns: the expression is `()`, which excludes every path. -/
theorem C69_no_patterns (ls : List PatLine) (hok : ∀ l ∈ ls, PatLineOk l) (rest : Str) (hr : NoNL rest) (hne : ls.filterMap PatLine.pattern? = []) :
    ∃ r, rxParse (ignoreRegstr (unlines (ls.map PatLine.text) ++ rest)) = some r ∧ ∀ path, r.matchString path = true := by
  have : ignoreRegstr (unlines (ls.map PatLine.text) ++ rest) = b!"()" := by
    unfold ignoreRegstr
    rw [parseFile_spec ls hok rest hr, hne]
    rfl
  rw [this]
  refine ⟨_, rfl, fun path => (matchString_iff _ path).2 ⟨[], [], path, rfl, ?_⟩⟩
  exact .group .eps

end Ripsrc
