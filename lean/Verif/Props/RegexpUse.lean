import Verif.Props.GenIgnore
import Verif.Props.CodeInfo
import Verif.Model.CommitMeta
/-!
# The regular expressions of the code and the functions that model them (C70)
-/
namespace Ripsrc
open Spec

/-- `licenses` : `/repo/ripsrc/fileinfo/license.go:11`. -/
def licensesExpr : Str := b!"\\/?(LICENSE|LICENCE|README|COPYING|LICENSE-.*|UNLICENSE|UNLICENCE)(\\.(md|txt))?$"
/-- `generatedRegexp` : `/repo/ripsrc/code_info.go:201`. -/
def generatedExpr : Str := b!"(GENERATED|DO NOT EDIT|DO NOT MODIFY|machine generated)"
/-- `filenameMask` : `/repo/ripsrc/commitmeta/commitmeta.go:233`. -/
def filenameMaskExpr : Str := b!"^(100644|100755)$"
/-- `tabSplitter` : `/repo/ripsrc/commitmeta/commitmeta.go:292`. -/
def tabExpr : Str := b!"\\t"
/-- `renameRe` : `/repo/ripsrc/commitmeta/commitmeta.go:235`. -/
def renameExpr : Str := b!"(.*)\\{(.*) => (.*)\\}(.*)"

/-! ## Expressions without repetition -/

theorem matchString_forms {r : Rx} {l : List Form} (h : r.forms = some l) (s : Str) : r.matchString s = true ↔ ∃ f ∈ l, f.Hits s :=
  (matchString_iff r s).trans (occurs_forms h s)

theorem hits_plain (w s : Str) : Form.Hits ⟨false, w, false⟩ s ↔ ∃ pre post, s = pre ++ (w ++ post) := by
  constructor
  · intro h
    obtain ⟨x, y, h⟩ := Form.hits_infix h
    exact ⟨x, y, by rw [← h, List.append_assoc]⟩
  · rintro ⟨x, y, rfl⟩
    exact ⟨x, w, y, by simp, rfl, by simp, by simp⟩

theorem hits_whole (w s : Str) : Form.Hits ⟨true, w, true⟩ s ↔ s = w := by
  constructor
  · intro h; exact Form.hits_eq h rfl rfl
  · rintro rfl
    exact ⟨[], s, [], by simp, rfl, by simp, by simp⟩

/-- **C70** The marker of generated files. -/
theorem C70_generated (s : Str) : ∃ r, rxParse generatedExpr = some r ∧ r.matchString s = generatedMarker s := by
  obtain ⟨r, h1, h2⟩ : ∃ r, rxParse generatedExpr = some r ∧
      r.forms = some [⟨false, b!"GENERATED", false⟩, ⟨false, b!"DO NOT EDIT", false⟩, ⟨false, b!"DO NOT MODIFY", false⟩, ⟨false, b!"machine generated", false⟩] := ⟨_, rfl, rfl⟩
  refine ⟨r, h1, ?_⟩
  rw [Bool.eq_iff_iff, matchString_forms h2, generatedMarker_iff]
  simp only [List.mem_cons, List.not_mem_nil, or_false, exists_eq_or_imp, exists_eq_left, hits_plain, HasMarker]

/-- **C70** The modes of files. -/
theorem C70_filename_mask (s : Str) : ∃ r, rxParse filenameMaskExpr = some r ∧ (r.matchString s = true ↔ s = b!"100644" ∨ s = b!"100755") := by
  obtain ⟨r, h1, h2⟩ : ∃ r, rxParse filenameMaskExpr = some r ∧ r.forms = some [⟨true, b!"100644", true⟩, ⟨true, b!"100755", true⟩] := ⟨_, rfl, rfl⟩
  refine ⟨r, h1, ?_⟩
  rw [matchString_forms h2]
  simp only [List.mem_cons, List.not_mem_nil, or_false, exists_eq_or_imp, exists_eq_left, hits_whole]

/-! ## Splitting at tabs -/

theorem tab_runs (start : Bool) (b : UInt8) (s : Str) : (Rx.one (.lit 9)).runs ⟨start, b :: s, []⟩ = if b = 9 then [⟨false, s, []⟩] else [] := by
  simp only [Rx.runs]
  by_cases hb : b = 9
  · subst hb; rfl
  · rw [if_neg hb, if_neg]
    intro hc
    obtain ⟨r, hr, h1, h2⟩ := (has_iff _ _).1 hc
    rw [List.mem_singleton.1 hr] at h1 h2
    exact hb (UInt8.le_antisymm h2 h1)

theorem tabSplit (s : Str) : ∀ (start adj : Bool) (seg : Str),
    regSplitFrom (.one (.lit 9)) start adj 0 seg s = (match splitByte 9 s with | [] => [seg] | x :: xs => (seg ++ x) :: xs) := by
  induction s with
  | nil => intro start adj seg; simp [regSplitFrom, Rx.runs, splitByte]
  | cons b s ih =>
    intro start adj seg
    simp only [regSplitFrom, tab_runs]
    by_cases hb : b = 9
    · subst hb
      rw [if_pos rfl]
      have : (9 :: s : Str).length - s.length = 1 := by simp
      simp only [this]
      rw [ih false true []]
      have hs : splitByte 9 (9 :: s) = [] :: splitByte 9 s := splitByte_append 9 [] s (by simp)
      rw [hs]
      have hne := splitByte_ne_nil 9 s
      cases hx : splitByte 9 s with
      | nil => exact absurd hx hne
      | cons x xs => simp
    · rw [if_neg hb]
      simp only
      rw [ih false false (seg ++ [b])]
      have hne := splitByte_ne_nil 9 s
      cases hx : splitByte 9 s with
      | nil => exact absurd hx hne
      | cons x xs =>
        have : splitByte 9 (b :: s) = (b :: x) :: xs := by simp [splitByte, hb, hx]
        rw [this]
        simp

/-- **C70** Splitting with the expression for a tab. -/
theorem C70_tab_split (s : Str) : ∃ r, rxParse tabExpr = some r ∧ regSplit r s = splitByte 9 s := by
  refine ⟨.one (.lit 9), rfl, ?_⟩
  unfold regSplit
  rw [tabSplit]
  have hne := splitByte_ne_nil 9 s
  cases hx : splitByte 9 s with
  | nil => exact absurd hx hne
  | cons x xs => rfl

/-! ## Names of licences -/

theorem word_iff {r : Rx} {w : Str} (h : r.forms = some [⟨false, w, false⟩]) (pre mid post : Str) : Matches r pre mid post ↔ mid = w := by
  rw [forms_iff r h]
  simp [Form.Fits]

theorem seq_iff (a b : Rx) (pre mid post : Str) : Matches (.seq a b) pre mid post ↔ ∃ x y, mid = x ++ y ∧ Matches a pre x (y ++ post) ∧ Matches b (pre ++ x) y post := by
  constructor
  · intro h
    cases h with
    | seq h1 h2 => exact ⟨_, _, rfl, h1, h2⟩
  · rintro ⟨x, y, rfl, h1, h2⟩
    exact .seq h1 h2

theorem alt_iff (a b : Rx) (pre mid post : Str) : Matches (.alt a b) pre mid post ↔ Matches a pre mid post ∨ Matches b pre mid post := by
  constructor
  · intro h
    cases h with
    | altL h => exact .inl h
    | altR h => exact .inr h
  · rintro (h | h)
    · exact .altL h
    · exact .altR h

theorem group_iff (n : Nat) (a : Rx) (pre mid post : Str) : Matches (.group n a) pre mid post ↔ Matches a pre mid post :=
  ⟨fun h => by cases h; assumption, .group⟩

theorem eol_iff (pre mid post : Str) : Matches .eol pre mid post ↔ mid = [] ∧ post = [] :=
  ⟨fun h => by cases h; exact ⟨rfl, rfl⟩, by rintro ⟨rfl, rfl⟩; exact .eol⟩

theorem stardot_iff (g : Bool) (pre mid post : Str) : Matches (.star .dot g) pre mid post ↔ 10 ∉ mid := by
  constructor
  · intro h
    cases h with
    | star h =>
      intro hm
      have := h 10 hm
      simp only [InCls, Cls.dot, if_true] at this
      rcases this (10, 10) (by simp) with h | h <;> exact absurd h (by decide)
  · intro h
    refine .star (fun b hb => ?_)
    simp only [InCls, Cls.dot, if_true, List.mem_singleton, forall_eq]
    have hne : b ≠ 10 := fun e => h (e ▸ hb)
    rcases UInt8.lt_or_lt_of_ne hne with h | h
    · exact .inl h
    · exact .inr h

theorem seqOf_lits (w : Str) (r : Rx) (pre mid post : Str) : Matches (seqOf (w.map (fun b => .one (.lit b)) ++ [r])) pre mid post ↔ ∃ y, mid = w ++ y ∧ Matches r (pre ++ w) y post := by
  induction w generalizing pre mid with
  | nil => simp [seqOf]
  | cons b w ih =>
    rw [List.map_cons, List.cons_append, seqOf_cons]
    constructor
    · rintro ⟨x, y, rfl, h1, h2⟩
      rw [(lit_iff b _ _ _).1 h1] at h2 ⊢
      obtain ⟨z, rfl, h3⟩ := (ih _ _).1 h2
      exact ⟨z, rfl, by simpa using h3⟩
    · rintro ⟨y, rfl, h⟩
      exact ⟨[b], w ++ y, rfl, (lit_iff b _ _ _).2 rfl, (ih _ _).2 ⟨y, rfl, by simpa using h⟩⟩

theorem license_occurs (path : Str) : ∃ r, rxParse licensesExpr = some r ∧ (Occurs r path ↔ LicenseName path) := by
  obtain ⟨A, W1, W2, W3, W4, W5, W6, X, h, hA, h1, h2, h3, h4, h5, h6, hX⟩ : ∃ A W1 W2 W3 W4 W5 W6 X, rxParse licensesExpr = some (.seq A (.seq (.group 1 (.alt W1 (.alt W2 (.alt W3 (.alt W4
      (.alt (seqOf (b!"LICENSE-".map (fun b => .one (.lit b)) ++ [.star .dot true])) (.alt W5 W6))))))) (.seq X .eol))) ∧
      A.forms = some [⟨false, b!"/", false⟩, ⟨false, [], false⟩] ∧
      W1.forms = some [⟨false, b!"LICENSE", false⟩] ∧ W2.forms = some [⟨false, b!"LICENCE", false⟩] ∧ W3.forms = some [⟨false, b!"README", false⟩] ∧
      W4.forms = some [⟨false, b!"COPYING", false⟩] ∧ W5.forms = some [⟨false, b!"UNLICENSE", false⟩] ∧ W6.forms = some [⟨false, b!"UNLICENCE", false⟩] ∧
      X.forms = some [⟨false, b!".md", false⟩, ⟨false, b!".txt", false⟩, ⟨false, [], false⟩] := ⟨_, _, _, _, _, _, _, _, rfl, rfl, rfl, rfl, rfl, rfl, rfl, rfl, rfl⟩
  refine ⟨_, h, ?_⟩
  unfold Occurs
  simp only [seq_iff, group_iff, alt_iff, word_iff h1, word_iff h2, word_iff h3, word_iff h4, word_iff h5, word_iff h6, seqOf_lits, stardot_iff, eol_iff, forms_iff A hA, forms_iff X hX]
  constructor
  · rintro ⟨pre, mid, post, rfl, a, m, rfl, -, g, m', rfl, hg, x, e, rfl, ⟨f, hf, hx⟩, rfl, rfl⟩
    have hx' : x ∈ [b!"", b!".md", b!".txt"] := by
      rw [hx.1]
      rcases List.mem_cons.1 hf with rfl | hf
      · decide
      rcases List.mem_cons.1 hf with rfl | hf
      · decide
      rw [List.mem_singleton.1 hf]
      decide
    have hword : g ∈ [b!"LICENSE", b!"LICENCE", b!"README", b!"COPYING", b!"UNLICENSE", b!"UNLICENCE"] → LicenseName (pre ++ (a ++ (g ++ (x ++ []))) ++ []) :=
      fun hw => .inl ⟨pre ++ a, g, x, by simp, hw, hx'⟩
    rcases hg with rfl | rfl | rfl | rfl | ⟨y, rfl, hy⟩ | rfl | rfl
    · exact hword (by decide)
    · exact hword (by decide)
    · exact hword (by decide)
    · exact hword (by decide)
    · refine .inr ⟨pre ++ a, y ++ x, by simp, ?_⟩
      rw [List.mem_append]
      rintro (hm | hm)
      · exact hy hm
      · rcases List.mem_cons.1 hx' with rfl | hx'
        · exact absurd hm (by decide)
        rcases List.mem_cons.1 hx' with rfl | hx'
        · exact absurd hm (by decide)
        rw [List.mem_singleton.1 hx'] at hm
        exact absurd hm (by decide)
    · exact hword (by decide)
    · exact hword (by decide)
  · rintro (⟨pre, w, e, rfl, hw, he⟩ | ⟨pre, rest, rfl, hr⟩)
    · refine ⟨pre, w ++ e, [], by simp, [], w ++ e, rfl, ⟨_, List.mem_cons_of_mem _ (List.mem_cons_self), rfl, by simp, by simp⟩, w, e, rfl, ?_, e, [], by simp, ?_, rfl, rfl⟩
      · simp only [List.mem_cons, List.not_mem_nil, or_false] at hw
        rcases hw with rfl | rfl | rfl | rfl | rfl | rfl <;> simp
      · simp only [List.mem_cons, List.not_mem_nil, or_false] at he
        refine ⟨⟨false, e, false⟩, ?_, rfl, by simp, by simp⟩
        rcases he with rfl | rfl | rfl <;> decide
    · refine ⟨pre, b!"LICENSE-" ++ rest, [], by simp, [], b!"LICENSE-" ++ rest, rfl, ⟨_, List.mem_cons_of_mem _ (List.mem_cons_self), rfl, by simp, by simp⟩, b!"LICENSE-" ++ rest, [], by simp, ?_,
        [], [], by simp, ⟨⟨false, [], false⟩, by simp, rfl, by simp, by simp⟩, rfl, rfl⟩
      exact .inr (.inr (.inr (.inr (.inl ⟨rest, rfl, hr⟩))))

/-- **C70** The names of licence files. -/
theorem C70_license_name (path : Str) : ∃ r, rxParse licensesExpr = some r ∧ r.matchString path = possibleLicense path := by
  obtain ⟨r, h1, h2⟩ := license_occurs path
  refine ⟨r, h1, ?_⟩
  rw [Bool.eq_iff_iff, matchString_iff, h2, possibleLicense_iff]

/-! ## Renames -/

/-- All ways to cut a text in two, the longest first part first. -/
def splitsDesc : Str → List (Str × Str)
  | [] => [([], [])]
  | b :: s => (splitsDesc s).map (fun x => (b :: x.1, x.2)) ++ [([], b :: s)]

theorem splitsDesc_append {s : Str} {x : Str × Str} (h : x ∈ splitsDesc s) : s = x.1 ++ x.2 := by
  induction s generalizing x with
  | nil => simp [splitsDesc] at h; simp [h]
  | cons b s ih =>
    simp only [splitsDesc, List.mem_append, List.mem_map, List.mem_singleton] at h
    rcases h with ⟨y, hy, rfl⟩ | rfl
    · rw [ih hy]; rfl
    · rfl

theorem greedyCut_splits {α : Type} (lit : Str) (k : Str → Option α) (s : Str) :
    greedyCut lit k s = (splitsDesc s).findSome? (fun x => if startsWith x.2 lit then (k (x.2.drop lit.length)).map (fun v => (x.1, v)) else none) := by
  induction s with
  | nil => simp [greedyCut, splitsDesc]
  | cons b s ih =>
    simp only [greedyCut, splitsDesc, List.findSome?_append, List.findSome?_map, List.findSome?_cons, List.findSome?_nil, ih]
    have : ∀ l : List (Str × Str), l.findSome? ((fun x => if startsWith x.2 lit then (k (x.2.drop lit.length)).map (fun v => (x.1, v)) else none) ∘ fun x => (b :: x.1, x.2)) =
        (l.findSome? (fun x => if startsWith x.2 lit then (k (x.2.drop lit.length)).map (fun v => (x.1, v)) else none)).map (fun x => (b :: x.1, x.2)) := by
      intro l
      induction l with
      | nil => rfl
      | cons x l ihl =>
        simp only [List.findSome?_cons, Function.comp]
        by_cases hc : startsWith x.2 lit = true
        · rw [if_pos hc, if_pos hc]
          cases k (x.2.drop lit.length) with
          | none => simpa using ihl
          | some v => rfl
        · rw [if_neg hc, if_neg hc]
          exact ihl
    rw [this]
    cases (splitsDesc s).findSome? (fun x => if startsWith x.2 lit then (k (x.2.drop lit.length)).map (fun v => (x.1, v)) else none) with
    | some x => rfl
    | none =>
      simp only [Option.map_none, Option.none_or]
      by_cases hc : startsWith (b :: s) lit = true
      · rw [if_pos hc]
        cases k ((b :: s).drop lit.length) <;> rfl
      · rw [if_neg hc]

theorem dot_has {b : UInt8} (h : b ≠ 10) : Cls.dot.has b = true := by
  rw [has_iff]
  simp only [InCls, Cls.dot, if_true, List.mem_singleton, forall_eq]
  exact UInt8.lt_or_lt_of_ne h

theorem star_splits (caps : List (Nat × Str)) (s : Str) (h : 10 ∉ s) : ∀ start, starRuns .dot true caps start s =
    (splitsDesc s).map (fun x => ⟨start && x.1.isEmpty, x.2, caps⟩) := by
  induction s with
  | nil => intro start; simp [starRuns, splitsDesc]
  | cons b s ih =>
    intro start
    have hb : b ≠ 10 := fun e => h (by simp [e])
    simp only [starRuns, dot_has hb, if_true, splitsDesc, List.map_append, List.map_map, List.map_cons, List.map_nil]
    rw [ih (fun hm => h (by simp [hm])) false]
    congr 1
    · refine List.map_congr_left (fun x hx => ?_)
      simp
    · simp

theorem group_splits (n : Nat) (start : Bool) (s : Str) (caps : List (Nat × Str)) (h : 10 ∉ s) : (Rx.group n (.star .dot true)).runs ⟨start, s, caps⟩ =
    (splitsDesc s).map (fun x => ⟨start && x.1.isEmpty, x.2, caps ++ [(n, x.1)]⟩) := by
  simp only [Rx.runs, star_splits caps s h, List.map_map]
  refine List.map_congr_left (fun x hx => ?_)
  have := splitsDesc_append hx
  simp only [Function.comp, RxState.mk.injEq, true_and]
  congr 3
  rw [this, List.length_append, Nat.add_sub_cancel, List.take_left]

theorem head?_flatMap {α β : Type} (l : List α) (f : α → List β) : (l.flatMap f).head? = l.findSome? (fun x => (f x).head?) := by
  induction l with
  | nil => rfl
  | cons a l ih =>
    rw [List.flatMap_cons, List.findSome?_cons, List.head?_append, ih]
    cases (f a).head? <;> rfl

/-- A literal text and then `R`. -/
def litThen (w : Str) (R : Rx) : Rx := w.foldr (fun b r => .seq (.one (.lit b)) r) R

theorem lit_has (b c : UInt8) : (Cls.lit b).has c = true ↔ c = b := by
  rw [has_iff]
  constructor
  · rintro ⟨r, hr, h1, h2⟩
    rw [List.mem_singleton.1 hr] at h1 h2
    exact UInt8.le_antisymm h2 h1
  · rintro rfl
    exact ⟨(c, c), by simp [Cls.lit], UInt8.le_refl _, UInt8.le_refl _⟩

theorem litThen_runs (w : Str) (hw : w ≠ []) (R : Rx) : ∀ (start : Bool) (s : Str) (caps : List (Nat × Str)),
    (litThen w R).runs ⟨start, s, caps⟩ = if startsWith s w then R.runs ⟨false, s.drop w.length, caps⟩ else [] := by
  induction w with
  | nil => exact absurd rfl hw
  | cons b w ih =>
    intro start s caps
    simp only [litThen, List.foldr_cons, Rx.runs]
    cases s with
    | nil => simp [startsWith]
    | cons c s =>
      simp only
      by_cases hc : c = b
      · subst hc
        rw [if_pos ((lit_has c c).2 rfl)]
        simp only [List.flatMap_cons, List.flatMap_nil, List.append_nil]
        cases w with
        | nil => simp [startsWith]
        | cons d w =>
          have := ih (by simp) false s caps
          simp only [litThen] at this
          rw [this]
          simp [startsWith]
      · rw [if_neg (fun h => hc ((lit_has b c).1 h))]
        have : startsWith (c :: s) (b :: w) = false := by
          cases hs : startsWith (c :: s) (b :: w) with
          | false => rfl
          | true =>
            obtain ⟨r, hr⟩ := startsWith_iff.1 hs
            exact absurd (List.cons.inj hr).1 hc
        rw [this]
        simp

/-- `(.*)` followed by a literal text and `R`. -/
theorem groupThen_head {α : Type} (n : Nat) (w : Str) (hw : w ≠ []) (R : Rx) (k : Str → Option α) (start : Bool) (s : Str) (caps : List (Nat × Str)) (F : Str → α → RxState) (h : 10 ∉ s)
    (hk : ∀ p r, s = p ++ (w ++ r) → (R.runs ⟨false, r, caps ++ [(n, p)]⟩).head? = (k r).map (F p)) :
    ((Rx.seq (.group n (.star .dot true)) (litThen w R)).runs ⟨start, s, caps⟩).head? = (greedyCut w k s).map (fun x => F x.1 x.2) := by
  rw [Rx.runs, group_splits n start s caps h, head?_flatMap, greedyCut_splits]
  have hall : ∀ x ∈ splitsDesc s, s = x.1 ++ x.2 := fun x hx => splitsDesc_append hx
  generalize splitsDesc s = l at hall
  induction l with
  | nil => rfl
  | cons x l ih =>
    have ih := ih (fun y hy => hall y (by simp [hy]))
    simp only [List.map_cons, List.findSome?_cons, litThen_runs w hw]
    by_cases hc : startsWith x.2 w = true
    · rw [if_pos hc, if_pos hc]
      obtain ⟨r, hr⟩ := startsWith_iff.1 hc
      have hs : s = x.1 ++ (w ++ r) := by rw [hall x (by simp), ← hr]
      have hd : x.2.drop w.length = r := by rw [hr, List.drop_left]
      rw [hd, hk x.1 r hs]
      cases k r with
      | none => simpa [litThen_runs w hw] using ih
      | some v => rfl
    · rw [if_neg hc, if_neg hc]
      simpa [litThen_runs w hw] using ih

theorem splitsDesc_head (s : Str) : (splitsDesc s).head? = some (s, []) := by
  induction s with
  | nil => rfl
  | cons b s ih => simp [splitsDesc, List.head?_append, ih]

/-- The tree of the expression for renames. -/
def renameRx : Rx := .seq (.group 1 (.star .dot true)) (litThen b!"{" (.seq (.group 2 (.star .dot true)) (litThen b!" => " (.seq (.group 3 (.star .dot true)) (litThen b!"}" (.group 4 (.star .dot true)))))))

theorem rename_head (start : Bool) (s : Str) (h : 10 ∉ s) : (renameRx.runs ⟨start, s, []⟩).head? =
    (renameMatch s).map (fun x => ⟨false, [], [(1, x.1), (2, x.2.1), (3, x.2.2.1), (4, x.2.2.2)]⟩) := by
  refine groupThen_head 1 b!"{" (by simp) _ _ start s [] (fun (p : Str) (x : Str × Str × Str) => ⟨false, [], [(1, p), (2, x.1), (3, x.2.1), (4, x.2.2)]⟩) h (fun p1 r1 e1 => ?_)
  have h1 : 10 ∉ r1 := fun hm => h (by simp [e1, hm])
  refine groupThen_head 2 b!" => " (by simp) _ _ false r1 _ (fun (p : Str) (x : Str × Str) => ⟨false, [], [(1, p1), (2, p), (3, x.1), (4, x.2)]⟩) h1 (fun p2 r2 e2 => ?_)
  have h2 : 10 ∉ r2 := fun hm => h1 (by simp [e2, hm])
  refine groupThen_head 3 b!"}" (by simp) _ _ false r2 _ (fun (p : Str) (x : Str) => ⟨false, [], [(1, p1), (2, p2), (3, p), (4, x)]⟩) h2 (fun p3 r3 e3 => ?_)
  have h3 : 10 ∉ r3 := fun hm => h2 (by simp [e3, hm])
  rw [group_splits 4 false r3 _ h3, List.head?_map, splitsDesc_head]
  rfl

theorem greedyCut_tail {α : Type} {lit : Str} {k : Str → Option α} {b : UInt8} {s : Str} (h : greedyCut lit k (b :: s) = none) : greedyCut lit k s = none := by
  simp only [greedyCut] at h
  cases hc : greedyCut lit k s with
  | none => rfl
  | some x => rw [hc] at h; cases h

/-- **C70** Renames in the output of git: the parts that the expression finds. -/
theorem C70_rename (fn : Str) (h : 10 ∉ fn) : ∃ r, rxParse renameExpr = some r ∧ renameMatch fn = (r.find fn).map (fun t => (t.sub 1, t.sub 2, t.sub 3, t.sub 4)) := by
  refine ⟨renameRx, rfl, ?_⟩
  unfold Rx.find
  generalize true = start
  induction fn generalizing start with
  | nil =>
    rw [Rx.findFrom, rename_head start [] h]
    rfl
  | cons b s ih =>
    have hh := rename_head start (b :: s) h
    rw [Rx.findFrom]
    cases hr : renameRx.runs ⟨start, b :: s, []⟩ with
    | nil =>
      rw [hr] at hh
      have hn : renameMatch (b :: s) = none := by
        cases hm : renameMatch (b :: s) with
        | none => rfl
        | some x => rw [hm] at hh; cases hh
      simp only
      rw [← ih (fun hm => h (by simp [hm])) false, hn]
      exact (greedyCut_tail hn).symm
    | cons t l =>
      rw [hr] at hh
      cases hm : renameMatch (b :: s) with
      | none => rw [hm] at hh; cases hh
      | some x =>
        rw [hm] at hh
        simp only [List.head?_cons, Option.map_some, Option.some.injEq] at hh
        subst hh
        rfl

/-! ## Examples -/

/-- The expressions have a meaning in the model and find what they should. -/
example : (rxParse renameExpr).bind (fun r => (r.find b!"a/{b => c}/d").map (fun t => (t.sub 1, t.sub 2, t.sub 3, t.sub 4))) = some (b!"a/", b!"b", b!"c", b!"/d") := by decide +kernel
example : (rxParse licensesExpr).map (fun r => (r.matchString b!"src/LICENSE.md", r.matchString b!"src/LICENSE.go")) = some (true, false) := by decide +kernel
example : (rxParse generatedExpr).map (fun r => (r.matchString b!"// DO NOT EDIT", r.matchString b!"// do not edit")) = some (true, false) := by decide +kernel
example : (rxParse tabExpr).map (fun r => regSplit r b!"1\t2\tfile") = some [b!"1", b!"2", b!"file"] := by decide +kernel
example : (rxParse filenameMaskExpr).map (fun r => (r.matchString b!"100644", r.matchString b!"120000")) = some (true, false) := by decide +kernel

end Ripsrc
