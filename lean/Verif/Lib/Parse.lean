import Verif.Spec.Patch
import Verif.Lib.History
import Verif.Lib.Apply
/-! # Lemmas about the diff parser -/
namespace Ripsrc
open Spec

/-! ### `parseContext` -/

theorem atCount_replicate (k : Nat) (r : Str) (h : r.head? ≠ some 64) : atCount (List.replicate k 64 ++ r) = k := by
  induction k with
  | zero =>
    cases r with
    | nil => rfl
    | cons b r =>
      simp only [List.replicate, List.nil_append]
      unfold atCount
      split
      · rename_i heq; cases heq; simp at h
      · rfl
  | succ k ih => simp only [List.replicate_succ, List.cons_append, atCount, ih]

theorem findEnd_append (target c i : Nat) (pre rest : Str) (h : c + pre.count 64 < target) :
    findEnd target c i (pre ++ rest) = findEnd target (c + pre.count 64) (i + pre.length) rest := by
  induction pre generalizing c i with
  | nil => simp
  | cons b pre ih =>
    simp only [List.cons_append, findEnd]
    by_cases hb : b = 64
    · subst hb
      simp only [List.count_cons_self] at h
      rw [if_pos rfl, if_neg (by omega), ih _ _ (by omega)]
      simp only [List.count_cons_self, List.length_cons]
      congr 1 <;> omega
    · rw [List.count_cons_of_ne hb] at h
      rw [if_neg hb, if_neg (by omega), ih _ _ (by omega), List.count_cons_of_ne hb]
      simp only [List.length_cons]
      congr 1; omega

theorem dropWhile_append_of_all {p : UInt8 → Bool} (a b : Str) (h : ∀ x ∈ a, p x = true) :
    (a ++ b).dropWhile p = b.dropWhile p := by
  induction a with
  | nil => rfl
  | cons x a ih => simp [h x (by simp), ih (fun y hy => h y (by simp [hy]))]

theorem dropWhile_id {p : UInt8 → Bool} (a : Str) (h : ∀ x, a.head? = some x → p x = false) : a.dropWhile p = a := by
  cases a with
  | nil => rfl
  | cons x a => simp [h x rfl]

def isAtSp (x : UInt8) : Bool := x == 64 || x == 32

theorem trim_mid (pre m post : Str) (h1 : ∀ x ∈ pre, isAtSp x = true) (h2 : ∀ x ∈ post, isAtSp x = true)
    (hne : m ≠ []) (h3 : ∀ x, m.head? = some x → isAtSp x = false) (h4 : ∀ x, m.getLast? = some x → isAtSp x = false) :
    trimAtSpace (pre ++ m ++ post) = m := by
  have e : trimAtSpace (pre ++ m ++ post) = (((pre ++ m ++ post).dropWhile isAtSp).reverse.dropWhile isAtSp).reverse := rfl
  rw [e, List.append_assoc, dropWhile_append_of_all pre _ h1, dropWhile_id (m ++ post), List.reverse_append,
    dropWhile_append_of_all _ _ (by simpa using h2), dropWhile_id m.reverse, List.reverse_reverse]
  · intro x hx; exact h4 x (by simpa using hx)
  · intro x hx
    apply h3 x
    cases m with
    | nil => exact absurd rfl hne
    | cons y m => simpa using hx

theorem Spec.Range.text_mem {r : Range} (hr : r.Ok) : ∀ b ∈ r.text, b = 43 ∨ b = 45 ∨ b = 44 ∨ (48 ≤ b ∧ b ≤ 57) := by
  intro b hb
  unfold Range.text at hb
  simp only [List.mem_append, List.mem_singleton] at hb
  rcases hb with (rfl | hb) | hb
  · rcases hr.1 with h | h <;> simp [h]
  · exact Or.inr (Or.inr (Or.inr (itoa_digits _ b hb)))
  · cases hc : r.count with
    | none => rw [hc] at hb; simp at hb
    | some n =>
      rw [hc] at hb
      simp only [List.mem_append, List.mem_singleton] at hb
      rcases hb with rfl | hb
      · exact Or.inr (Or.inr (Or.inl rfl))
      · exact Or.inr (Or.inr (Or.inr (itoa_digits _ b hb)))

theorem Spec.Range.text_ne_nil (r : Range) : r.text ≠ [] := by simp [Range.text]

theorem Spec.Range.text_last {r : Range} (hr : r.Ok) : ∀ x, r.text.getLast? = some x → isAtSp x = false := by
  intro x hx
  have := r.text_mem hr x (List.mem_of_getLast? hx)
  rcases this with rfl | rfl | rfl | h
  · decide
  · decide
  · decide
  · unfold isAtSp
    have h1 : x ≠ 64 := by rintro rfl; exact absurd h.2 (by decide)
    have h2 : x ≠ 32 := by rintro rfl; exact absurd h.1 (by decide)
    simp [h1, h2]

theorem parseLocation_text {r : Range} (hr : r.Ok) : parseLocation r.text = .ok r.read := by
  obtain ⟨hop, hs, hc⟩ := hr
  unfold parseLocation
  have hlen : ¬ r.text.length < 2 := by
    have := List.length_pos_iff.2 (itoa_ne_nil r.start)
    simp only [Range.text, List.length_append, List.length_singleton]
    omega
  rw [if_neg hlen]
  have h44 : ∀ n, (44 : UInt8) ∉ itoa n := fun n => itoa_not_mem n 44 (by decide)
  have hop' : r.op = 45 ∨ r.op = 43 := hop.symm
  cases hcount : r.count with
  | none =>
    have ht : r.text = r.op :: itoa r.start := by simp [Range.text, hcount]
    rw [ht]
    simp only [if_pos hop', splitByte_last 44 _ (h44 _), atoi_itoa _ hs, Range.read, hcount]
  | some n =>
    have ht : r.text = r.op :: (itoa r.start ++ 44 :: itoa n) := by simp [Range.text, hcount]
    rw [ht]
    simp only [if_pos hop', splitByte_append 44 _ _ (h44 _), splitByte_last 44 _ (h44 _), atoi_itoa _ hs,
      atoi_itoa _ (hc n hcount), Range.read, hcount]

theorem joinWith_head {sep : Str} {ls : List Str} {l : Str} (h : ls.head? = some l) (hne : l ≠ []) :
    (joinWith sep ls).head? = l.head? := by
  cases ls with
  | nil => cases h
  | cons x ls =>
    simp only [List.head?_cons, Option.some.injEq] at h
    subst h
    cases ls with
    | nil => rfl
    | cons y ls =>
      cases x with
      | nil => exact absurd rfl hne
      | cons a x => simp [joinWith]

theorem joinWith_last {sep : Str} {ls : List Str} {l : Str} (h : ls.getLast? = some l) (hne : l ≠ []) :
    (joinWith sep ls).getLast? = l.getLast? := by
  induction ls with
  | nil => cases h
  | cons x ls ih =>
    cases ls with
    | nil => simp only [List.getLast?_singleton, Option.some.injEq] at h; subst h; rfl
    | cons y ls =>
      have ih := ih (by simpa using h)
      simp only [joinWith]
      rw [List.getLast?_append, ih]
      cases l with
      | nil => exact absurd rfl hne
      | cons a l => simp [List.getLast?_cons]

theorem mapM_ok {α β : Type} {f : α → Go β} {g : α → β} (l : List α) (h : ∀ x ∈ l, f x = .ok (g x)) :
    l.mapM f = .ok (l.map g) := by
  induction l with
  | nil => rfl
  | cons x l ih =>
    rw [List.mapM_cons, h x (by simp), ih (fun y hy => h y (by simp [hy]))]
    rfl

theorem parseContext_header (k : Nat) (hk : 1 ≤ k) (rs : List Range) (hne : rs ≠ []) (hrs : ∀ r ∈ rs, r.Ok)
    (heading : Str) : parseContext (headerText k rs heading) = .ok (rs.map Range.read) := by
  obtain ⟨j, rfl⟩ : ∃ j, k = j + 1 := ⟨k - 1, by omega⟩
  let m := joinWith b!" " (rs.map Range.text)
  have hmem : ∀ b ∈ m, b ≠ 64 := by
    intro b hb
    have : (64 : UInt8) ∉ m := not_mem_joinWith (by decide) (by
      intro l hl hc
      obtain ⟨r, hr, rfl⟩ := List.mem_map.1 hl
      have := r.text_mem (hrs r hr) 64 hc
      revert this; decide)
    rintro rfl; exact this hb
  have hsplit : headerText (j + 1) rs heading
      = ((List.replicate (j + 1) 64 ++ [32]) ++ m ++ ([32] ++ List.replicate j 64)) ++ 64 :: heading := by
    unfold headerText
    simp only [List.append_assoc, List.replicate_succ' (n := j), m]
    rw [show (List.replicate j (64 : UInt8) ++ ([64] ++ ([32] ++ (joinWith b!" " (rs.map Range.text) ++ ([32] ++ (List.replicate j 64 ++ ([64] ++ heading)))))))
      = List.replicate j 64 ++ ([64] ++ ([32] ++ (joinWith b!" " (rs.map Range.text) ++ ([32] ++ (List.replicate j 64 ++ 64 :: heading)))))  from rfl]
  have hat : atCount (headerText (j + 1) rs heading) = j + 1 := by
    unfold headerText
    simp only [List.append_assoc]
    exact atCount_replicate _ _ (by simp)
  have hcnt : ((List.replicate (j + 1) 64 ++ [32]) ++ m ++ ([32] ++ List.replicate j 64)).count (64 : UInt8) = 2 * j + 1 := by
    have hm0 : m.count (64 : UInt8) = 0 := List.count_eq_zero.2 (fun h => hmem 64 h rfl)
    simp only [List.count_append, List.count_replicate_self, hm0]
    simp
    omega
  unfold parseContext
  rw [hat, hsplit, findEnd_append _ _ _ _ _ (by rw [hcnt]; omega), hcnt]
  simp only [findEnd, if_true, Nat.zero_add]
  have h2 : 2 * j + 1 + 1 = (j + 1) * 2 := by omega
  simp only [h2, if_true]
  rw [if_neg (by simp)]
  rw [List.take_left' rfl]
  have hfirst : ∃ r, r ∈ rs ∧ rs.head? = some r := by
    cases rs with
    | nil => exact absurd rfl hne
    | cons r rs => exact ⟨r, by simp, rfl⟩
  obtain ⟨r0, hr0, hh⟩ := hfirst
  have hlast : ∃ r, r ∈ rs ∧ rs.getLast? = some r :=
    ⟨rs.getLast hne, List.getLast_mem hne, List.getLast?_eq_some_getLast hne⟩
  obtain ⟨r1, hr1, hl⟩ := hlast
  have hmne : m ≠ [] := joinWith_ne_nil (by simpa using hne) (by
    intro l hl; obtain ⟨r, _, rfl⟩ := List.mem_map.1 hl; exact r.text_ne_nil)
  have hm_head : m.head? = some r0.op := by
    rw [joinWith_head (l := r0.text) (by simp [hh]) r0.text_ne_nil]; simp [Range.text]
  have hm_last : m.getLast? = r1.text.getLast? := by
    rw [joinWith_last (l := r1.text) (by simp [hl]) r1.text_ne_nil]
  rw [trim_mid _ m _ (by
      intro x hx
      simp only [List.mem_append, List.mem_replicate, List.mem_singleton] at hx
      rcases hx with ⟨_, rfl⟩ | rfl <;> decide) (by
      intro x hx
      simp only [List.mem_append, List.mem_replicate, List.mem_singleton] at hx
      rcases hx with rfl | ⟨_, rfl⟩ <;> decide) hmne (by
      intro x hx
      rw [hm_head] at hx
      cases hx
      rcases (hrs r0 hr0).1 with h | h <;> rw [h] <;> decide) (by
      intro x hx
      rw [hm_last] at hx
      exact r1.text_last (hrs r1 hr1) x hx)]
  rw [splitByte_join 32 _ (by simpa using hne) (by
    intro l hl hc
    obtain ⟨r, hr, rfl⟩ := List.mem_map.1 hl
    have := r.text_mem (hrs r hr) 32 hc
    revert this; decide)]
  rw [List.mapM_map]
  exact mapM_ok rs (fun r hr => parseLocation_text (hrs r hr))

/-! ### `parseDiffDecl` -/

theorem remPrefix_quote (q : Bool) (c : UInt8) (hc : c ≠ 34) (p : Str) (hp : p ≠ []) :
    remPrefix (quoteIf q ([c, 47] ++ p)) [c, 47] = .ok p := by
  have hl : 0 < p.length := List.length_pos_iff.2 hp
  unfold remPrefix
  cases q with
  | false =>
    have h1 : ¬ ((quoteIf false ([c, 47] ++ p)).length ≥ 2 ∧ (quoteIf false ([c, 47] ++ p)).head? = some 34 ∧
        (quoteIf false ([c, 47] ++ p)).getLast? = some 34) := by
      simp [quoteIf, hc]
    rw [if_neg h1]
    simp only [quoteIf, Bool.false_eq_true, if_false]
    rw [if_neg]
    · rfl
    · simp; omega
  | true =>
    have h1 : ((quoteIf true ([c, 47] ++ p)).length ≥ 2 ∧ (quoteIf true ([c, 47] ++ p)).head? = some 34 ∧
        (quoteIf true ([c, 47] ++ p)).getLast? = some 34) := by
      refine ⟨by simp [quoteIf], by simp [quoteIf], ?_⟩
      simp only [quoteIf, if_true]
      rw [List.getLast?_append]
      rfl
    have h2 : ((quoteIf true ([c, 47] ++ p)).drop 1).dropLast = [c, 47] ++ p := by
      simp only [quoteIf, if_true]
      have : (([34] : Str) ++ ([c, 47] ++ p) ++ [34]).drop 1 = ([c, 47] ++ p) ++ [34] := rfl
      rw [this, List.dropLast_concat]
    rw [if_pos h1, h2]
    rw [if_neg]
    · rfl
    · simp; omega

theorem idxOf_append (a b : Str) (h : (32 : UInt8) ∉ a) : (a ++ 32 :: b).idxOf 32 = a.length := by
  induction a with
  | nil => simp
  | cons x a ih =>
    simp only [List.mem_cons, not_or] at h
    simp only [List.cons_append, List.idxOf_cons, List.length_cons]
    have : (x == 32) = false := by simpa using Ne.symm h.1
    rw [this, ih h.2]
    rfl

theorem not_mem_quoteIf {q : Bool} {s : Str} (h : (32 : UInt8) ∉ s) : (32 : UInt8) ∉ quoteIf q s := by
  cases q <;> simp [quoteIf, h]

theorem decl_nospace (q₁ q₂ : Bool) (p q : Str) (hp : p ≠ []) (hq : q ≠ []) (hps : (32 : UInt8) ∉ p)
    (hqs : (32 : UInt8) ∉ q) : parseDiffDecl (declLineQ q₁ q₂ p q) = .ok (p, q) := by
  have h1 : (32 : UInt8) ∉ quoteIf q₁ (b!"a/" ++ p) := not_mem_quoteIf (by simp [hps])
  have h2 : (32 : UInt8) ∉ quoteIf q₂ (b!"b/" ++ q) := not_mem_quoteIf (by simp [hqs])
  have e : declLineQ q₁ q₂ p q = b!"diff --git " ++ (quoteIf q₁ (b!"a/" ++ p) ++ 32 :: quoteIf q₂ (b!"b/" ++ q)) := by
    simp [declLineQ]
  unfold parseDiffDecl
  rw [e, if_neg (by simp), if_neg (by rw [startsWith_append]; decide)]
  have hd : (b!"diff --git " ++ (quoteIf q₁ (b!"a/" ++ p) ++ 32 :: quoteIf q₂ (b!"b/" ++ q))).drop 11
      = quoteIf q₁ (b!"a/" ++ p) ++ 32 :: quoteIf q₂ (b!"b/" ++ q) := rfl
  rw [hd]
  have hc : (quoteIf q₁ (b!"a/" ++ p) ++ 32 :: quoteIf q₂ (b!"b/" ++ q)).count 32 = 1 := by
    rw [List.count_append, List.count_cons_self, List.count_eq_zero.2 h1, List.count_eq_zero.2 h2]
  have hi := idxOf_append _ (quoteIf q₂ (b!"b/" ++ q)) h1
  have hl : (quoteIf q₁ (b!"a/" ++ p)).length ≠ 0 := by cases q₁ <;> simp [quoteIf]
  simp only [hc, hi]
  rw [if_neg (by omega), if_pos trivial, if_neg (by simp only [List.length_append, List.length_cons]; omega)]
  rw [List.take_left' rfl]
  have hdr : (quoteIf q₁ (b!"a/" ++ p) ++ 32 :: quoteIf q₂ (b!"b/" ++ q)).drop ((quoteIf q₁ (b!"a/" ++ p)).length + 1)
      = quoteIf q₂ (b!"b/" ++ q) := by
    rw [← List.drop_drop, List.drop_left' rfl]; rfl
  rw [hdr, show b!"a/" = [97, 47] from rfl, show b!"b/" = [98, 47] from rfl,
    remPrefix_quote q₁ 97 (by decide) p hp, remPrefix_quote q₂ 98 (by decide) q hq]

theorem declLine_eq (p q : Str) : declLine p q = declLineQ false false p q := by simp [declLine, declLineQ, quoteIf]

/-- More than one space: the result for arbitrary names. -/
theorem decl_spaces (p q : Str) (hs : (32 : UInt8) ∈ p ∨ (32 : UInt8) ∈ q) :
    parseDiffDecl (declLine p q) =
      (let data := b!"a/" ++ p ++ b!" b/" ++ q
       let mid := data.length / 2
       if data.length < 7 ∨ data.length % 2 ≠ 1 ∨ data.take 2 ≠ b!"a/" ∨ (data.drop (mid + 1)).take 2 ≠ b!"b/" then
         .error .renameWithSpaces
       else if (data.take mid).drop 2 ≠ data.drop (mid + 3) then .error .renameWithSpaces
       else .ok ((data.take mid).drop 2, data.drop (mid + 3))) := by
  have e : declLine p q = b!"diff --git " ++ (b!"a/" ++ p ++ b!" b/" ++ q) := by
    simp [declLine]
  unfold parseDiffDecl
  rw [e, if_neg (by simp), if_neg (by rw [startsWith_append]; decide)]
  have hd : (b!"diff --git " ++ (b!"a/" ++ p ++ b!" b/" ++ q)).drop 11 = b!"a/" ++ p ++ b!" b/" ++ q := rfl
  rw [hd]
  have hc : 2 ≤ (b!"a/" ++ p ++ b!" b/" ++ q).count 32 := by
    simp only [List.count_append]
    have h1 : (b!" b/" : Str).count 32 = 1 := by decide
    rw [h1]
    rcases hs with h | h
    · have := List.count_pos_iff.2 h; omega
    · have := List.count_pos_iff.2 h; omega
  simp only
  rw [if_neg (by omega), if_neg (by omega)]

theorem decl_same (p : Str) (hp : p ≠ []) : parseDiffDecl (declLine p p) = .ok (p, p) := by
  by_cases hs : (32 : UInt8) ∈ p
  · rw [decl_spaces p p (Or.inl hs)]
    have hl : 0 < p.length := List.length_pos_iff.2 hp
    have hlen : (b!"a/" ++ p ++ b!" b/" ++ p).length = 2 * (p.length + 2) + 1 := by simp; omega
    have hmid : (b!"a/" ++ p ++ b!" b/" ++ p).length / 2 = (b!"a/" ++ p).length := by rw [hlen]; simp; omega
    have e1 : b!"a/" ++ p ++ b!" b/" ++ p = (b!"a/" ++ p) ++ ([32] ++ (b!"b/" ++ p)) := by simp
    have ht : (b!"a/" ++ p ++ b!" b/" ++ p).take (b!"a/" ++ p).length = b!"a/" ++ p := by
      rw [e1]; exact List.take_left' rfl
    have hdr : ∀ k, (b!"a/" ++ p ++ b!" b/" ++ p).drop ((b!"a/" ++ p).length + k) = (([32] : Str) ++ (b!"b/" ++ p)).drop k := by
      intro k
      rw [e1, ← List.drop_drop, List.drop_left' rfl]
    simp only [hmid, ht, hdr]
    rw [if_neg, if_neg]
    · rfl
    · intro h; exact h rfl
    · rw [hlen]
      simp
      omega
  · rw [declLine_eq]; exact decl_nospace false false p p hp hp hs hs

theorem decl_any (p q : Str) (hp : p ≠ []) (hq : q ≠ []) :
    (∃ r, parseDiffDecl (declLine p q) = .ok r) ∨ parseDiffDecl (declLine p q) = .error .renameWithSpaces := by
  by_cases hs : (32 : UInt8) ∈ p ∨ (32 : UInt8) ∈ q
  · rw [decl_spaces p q hs]
    simp only
    split
    · exact Or.inr rfl
    · split
      · exact Or.inr rfl
      · exact Or.inl ⟨_, rfl⟩
  · simp only [not_or] at hs
    rw [declLine_eq]
    exact Or.inl ⟨_, decl_nospace false false p q hp hq hs.1 hs.2⟩

theorem newLines_append (a b : List Edit) : newLines (a ++ b) = newLines a ++ newLines b := by
  induction a with
  | nil => rfl
  | cons e a ih => cases e <;> simp [newLines, ih]

theorem newLines_keep (l : List Str) : newLines (l.map Edit.keep) = l := by
  induction l with
  | nil => rfl
  | cons a l ih => simp [newLines, ih]

/-! ### Folding the parser over lines -/

theorem gitRange_read (op : UInt8) (b n : Nat) : (gitRange op b n).read = readLocation op b n := by
  unfold gitRange readLocation
  split
  · rfl
  · split
    · rename_i h; subst h; rfl
    · rfl

theorem gitRange_ok {op : UInt8} {b n : Nat} (hop : op = 43 ∨ op = 45) (h : b + n < 2 ^ 63) : (gitRange op b n).Ok := by
  unfold gitRange
  split
  · exact ⟨hop, by simp only; omega, fun m hm => (by cases hm)⟩
  · split
    · exact ⟨hop, by simp only; omega, fun m hm => (by cases hm; decide)⟩
    · exact ⟨hop, by simp only; omega, fun m hm => (by cases hm; omega)⟩

theorem dropCR_append (a b : Str) (h : b ≠ [] ∨ dropCR a = a) : dropCR (a ++ b) = a ++ dropCR b := by
  by_cases hb : b = []
  · subst hb
    rcases h with h | h
    · exact absurd rfl h
    · simp [show dropCR [] = [] from rfl, h]
  · have hl : (a ++ b).getLast? = b.getLast? := by
      rw [List.getLast?_append]
      cases hl : b.getLast? with
      | none => rw [List.getLast?_eq_none_iff] at hl; exact absurd hl hb
      | some x => rfl
    unfold dropCR
    rw [hl]
    by_cases hx : b.getLast? = some 13
    · rw [if_pos hx, if_pos hx, List.dropLast_append_of_ne_nil hb]
    · rw [if_neg hx, if_neg hx]

theorem startsWith_cons_ne {c d : UInt8} {l pfx : Str} (h : c ≠ d) : startsWith (c :: l) (d :: pfx) = false := by
  cases hs : startsWith (c :: l) (d :: pfx) with
  | false => rfl
  | true =>
    obtain ⟨r, hr⟩ := startsWith_iff.1 hs
    simp only [List.cons_append, List.cons.injEq] at hr
    exact absurd hr.1 h

theorem norm_text (b : BodyLine) : b.norm.text = dropCR b.text := by
  rw [dropCR_text]
  cases b with
  | noNewline => rfl
  | edit e => cases e <;> rfl

theorem body_line_step (p : Parser) (hst : p.state = .inPatchLines) (b : BodyLine) :
    p.line (dropCR b.text) = .ok { p with lines := p.lines ++ b.norm.text ++ [10] } := by
  have hs : startsWith (dropCR b.text) b!"@@" = false := by
    rw [dropCR_text]
    cases b with
    | noNewline => decide
    | edit e => cases e <;> exact startsWith_cons_ne (by decide)
  unfold Parser.line
  rw [hst]
  simp only [Parser.lineInPatchLines, hs, norm_text, Bool.false_eq_true, if_false]
  rw [hst]

theorem body_fold (body : List BodyLine) (p : Parser) (hst : p.state = .inPatchLines) :
    (body.map (fun b => dropCR b.text)).foldlM Parser.line p
      = .ok { p with lines := p.lines ++ unlines (body.map (fun b => b.norm.text)) } := by
  induction body generalizing p with
  | nil => simp; rfl
  | cons b body ih =>
    simp only [List.map_cons, List.foldlM_cons, body_line_step p hst b]
    refine (ih { p with lines := p.lines ++ b.norm.text ++ [10] } hst).trans ?_
    simp [unlines_cons]

theorem oldLines_norm (body : List BodyLine) :
    (oldLines (edits (body.map BodyLine.norm))).length = (oldLines (edits body)).length := by
  induction body with
  | nil => rfl
  | cons b body ih =>
    cases b with
    | noNewline => exact ih
    | edit e => cases e <;> simp [BodyLine.norm, edits, oldLines, ih]

theorem newLines_norm (body : List BodyLine) :
    (newLines (edits (body.map BodyLine.norm))).length = (newLines (edits body)).length := by
  induction body with
  | nil => rfl
  | cons b body ih =>
    cases b with
    | noNewline => exact ih
    | edit e => cases e <;> simp [BodyLine.norm, edits, newLines, ih]

theorem header_line (p : Parser) (rs : List Range) (hne : rs ≠ []) (hrs : ∀ r ∈ rs, r.Ok) (heading : Str)
    (hst : p.state = .inPatchLines ∨ (p.state = .nextIsContext ∧ p.contexts = [] ∧ p.lines = [])) :
    p.line (dropCR (headerText 2 rs heading))
      = .ok { p.finishHunk with contexts := rs.map Range.read, state := .inPatchLines } := by
  have hcr : dropCR (headerText 2 rs heading) = headerText 2 rs (dropCR heading) := by
    unfold headerText
    apply dropCR_append
    right
    apply dropCR_of_ne
    rw [List.getLast?_append]
    exact (by decide : (some (64 : UInt8)) ≠ some 13)
  have hsw : startsWith (headerText 2 rs (dropCR heading)) b!"@@" = true := by
    have e : headerText 2 rs (dropCR heading) = b!"@@" ++ (b!" " ++ joinWith b!" " (rs.map Range.text) ++ b!" " ++
      List.replicate 2 64 ++ dropCR heading) := by simp [headerText, List.replicate]
    rw [e]; exact startsWith_append _ _
  have hlen : ¬ (headerText 2 rs (dropCR heading)).length ≤ 2 := by simp [headerText]
  rw [hcr]
  unfold Parser.line
  rcases hst with hst | ⟨hst, hc, hl⟩
  · rw [hst]
    simp only [Parser.lineInPatchLines, hsw, if_true, Parser.parseContext, parseContext_header 2 (by decide) rs hne hrs]
    rfl
  · rw [hst]
    simp only [if_neg hlen, hsw, if_true, Parser.parseContext, parseContext_header 2 (by decide) rs hne hrs]
    simp only [bind, Except.bind, Parser.finishHunk, hc, hl]
    simp

theorem finishHunk_run (p : Parser) (c : List HunkLocation) (hc : c ≠ []) (d : Str) :
    ({ p.finishHunk with contexts := c, state := .inPatchLines, lines := d } : Parser).finishHunk
      = { p.finishHunk with state := .inPatchLines, res := p.finishHunk.res ++ [{ locations := c, data := d }] } := by
  have : c.length ≠ 0 := fun h => hc (List.length_eq_zero_iff.1 h)
  simp [Parser.finishHunk, this]

theorem segs_fold (heads : Nat → Str) (segs : List (List Str × List BodyLine)) (o n : Nat) (p : Parser)
    (hst : p.state = .inPatchLines ∨ (p.state = .nextIsContext ∧ p.contexts = [] ∧ p.lines = []))
    (ho : o + (oldLines (segScript segs)).length < 2 ^ 63) (hn : n + (newLines (segScript segs)).length < 2 ^ 63) :
    ∃ st p', ((segLines heads o n segs).map dropCR).foldlM Parser.line p = .ok p' ∧
      p'.finishHunk = { p.finishHunk with
        state := st
        res := p.finishHunk.res ++ segHunks o n (segs.map (fun s => (s.1, s.2.map BodyLine.norm))) } := by
  induction segs generalizing o n p with
  | nil => exact ⟨p.state, p, rfl, by simp [segHunks]; rfl⟩
  | cons s segs ih =>
    obtain ⟨gap, body⟩ := s
    simp only [segScript, oldLines_append, oldLines_keep, List.length_append] at ho
    have hnl : (newLines (segScript ((gap, body) :: segs))).length
        = gap.length + (newLines (edits body)).length + (newLines (segScript segs)).length := by
      simp only [segScript, newLines_append, newLines_keep, List.length_append]
    rw [hnl] at hn
    simp only [segLines, List.map_append, List.map_cons, List.map_map, List.foldlM_append, List.foldlM_cons]
    let rs := [gitRange 45 (o + gap.length) (oldLines (edits body)).length,
      gitRange 43 (n + gap.length) (newLines (edits body)).length]
    have hrs : ∀ r ∈ rs, r.Ok := by
      intro r hr
      simp only [rs, List.mem_cons, List.not_mem_nil, or_false] at hr
      rcases hr with rfl | rfl
      · exact gitRange_ok (Or.inr rfl) (by omega)
      · exact gitRange_ok (Or.inl rfl) (by omega)
    have h1 := header_line p rs (by simp [rs]) hrs (heads (o + gap.length)) hst
    have hbody := body_fold body { p.finishHunk with contexts := rs.map Range.read, state := .inPatchLines } rfl
    simp only [rs] at h1
    rw [h1]
    simp only [bind, Except.bind]
    have hb2 : (body.map (dropCR ∘ BodyLine.text)).foldlM Parser.line
        { p.finishHunk with contexts := rs.map Range.read, state := .inPatchLines } = _ := hbody
    simp only [rs] at hb2
    rw [hb2]
    simp only
    obtain ⟨st, p', hp', hfin⟩ := ih (o + gap.length + (oldLines (edits body)).length)
      (n + gap.length + (newLines (edits body)).length)
      { p.finishHunk with
        contexts := rs.map Range.read, state := .inPatchLines
        lines := unlines (body.map (fun b => b.norm.text)) } (Or.inl rfl) (by omega) (by omega)
    refine ⟨st, p', ?_, ?_⟩
    · rw [← hp']
      simp only [Parser.finishHunk, List.nil_append, rs]
    · rw [hfin, finishHunk_run p _ (by simp [rs])]
      simp only [segHunks, List.map_cons, oldLines_norm, newLines_norm, rs, List.map_nil, gitRange_read, List.map_map,
        List.append_assoc, List.singleton_append]
      rfl

/-! ### Header lines -/

/-- A header line: not the `---` line. -/
theorem meta_step (p : Parser) (hst : p.state = .preMeta) (l : Str) (h : startsWith l b!"---" = false) :
    p.line l = .ok (p.metaLine l) := by
  unfold Parser.line
  rw [hst]
  simp only [h, if_true]

theorem startsWith_ne_of {l pfx : Str} {c : UInt8} {r : Str} (hl : l = c :: r) {d : UInt8} {q : Str} (hp : pfx = d :: q)
    (h : c ≠ d) : startsWith l pfx = false := by subst hl hp; exact startsWith_cons_ne h

/-- Two prefixes that differ at a position. -/
theorem startsWith_diff {a r pfx : Str} (i : Nat) (x y : UInt8) (ha : a[i]? = some x) (hp : pfx[i]? = some y) (h : x ≠ y) :
    startsWith (a ++ r) pfx = false := by
  cases hs : startsWith (a ++ r) pfx with
  | false => rfl
  | true =>
    obtain ⟨t, ht⟩ := startsWith_iff.1 hs
    have h1 : (a ++ r)[i]? = some x := by
      obtain ⟨hi, _⟩ := List.getElem?_eq_some_iff.1 ha
      rw [List.getElem?_append_left hi, ha]
    have h2 : (pfx ++ t)[i]? = some y := by
      obtain ⟨hi, _⟩ := List.getElem?_eq_some_iff.1 hp
      rw [List.getElem?_append_left hi, hp]
    rw [ht, h2] at h1
    exact absurd (Option.some.inj h1).symm h

theorem metaLine_other (p : Parser) (l : Str) (h : OtherHeader l) :
    p.metaLine l = p ∧ startsWith l b!"---" = false := by
  have key : ∀ (a r : Str), l = a ++ r →
      startsWith (a ++ r) b!"---" = false → startsWith (a ++ r) b!"rename from " = false →
      startsWith (a ++ r) b!"rename to " = false → startsWith (a ++ r) b!"new file " = false →
      startsWith (a ++ r) b!"deleted file " = false → startsWith (a ++ r) b!"Binary files " = false →
      p.metaLine l = p ∧ startsWith l b!"---" = false := by
    rintro a r rfl h0 h1 h2 h3 h4 h5
    refine ⟨?_, h0⟩
    unfold Parser.metaLine metaValue
    rw [show b!"rename from" ++ b!" " = b!"rename from " from rfl, show b!"rename to" ++ b!" " = b!"rename to " from rfl,
      show b!"new file" ++ b!" " = b!"new file " from rfl, show b!"deleted file" ++ b!" " = b!"deleted file " from rfl,
      show b!"Binary files" ++ b!" " = b!"Binary files " from rfl, h1, h2, h3, h4, h5]
    rfl
  rcases h.2 with ⟨r, hr⟩ | ⟨r, hr⟩ | ⟨r, hr⟩ | ⟨r, hr⟩ | ⟨r, hr⟩
  · exact key _ r hr (startsWith_diff 0 _ _ rfl rfl (by decide)) (startsWith_diff 0 _ _ rfl rfl (by decide))
      (startsWith_diff 0 _ _ rfl rfl (by decide)) (startsWith_diff 0 _ _ rfl rfl (by decide))
      (startsWith_diff 0 _ _ rfl rfl (by decide)) (startsWith_diff 0 _ _ rfl rfl (by decide))
  · exact key _ r hr (startsWith_diff 0 _ _ rfl rfl (by decide)) (startsWith_diff 0 _ _ rfl rfl (by decide))
      (startsWith_diff 0 _ _ rfl rfl (by decide)) (startsWith_diff 0 _ _ rfl rfl (by decide))
      (startsWith_diff 0 _ _ rfl rfl (by decide)) (startsWith_diff 0 _ _ rfl rfl (by decide))
  · exact key _ r hr (startsWith_diff 0 _ _ rfl rfl (by decide)) (startsWith_diff 0 _ _ rfl rfl (by decide))
      (startsWith_diff 0 _ _ rfl rfl (by decide)) (startsWith_diff 4 _ _ rfl rfl (by decide))
      (startsWith_diff 0 _ _ rfl rfl (by decide)) (startsWith_diff 0 _ _ rfl rfl (by decide))
  · exact key _ r hr (startsWith_diff 0 _ _ rfl rfl (by decide)) (startsWith_diff 0 _ _ rfl rfl (by decide))
      (startsWith_diff 0 _ _ rfl rfl (by decide)) (startsWith_diff 0 _ _ rfl rfl (by decide))
      (startsWith_diff 0 _ _ rfl rfl (by decide)) (startsWith_diff 0 _ _ rfl rfl (by decide))
  · exact key _ r hr (startsWith_diff 0 _ _ rfl rfl (by decide)) (startsWith_diff 0 _ _ rfl rfl (by decide))
      (startsWith_diff 0 _ _ rfl rfl (by decide)) (startsWith_diff 0 _ _ rfl rfl (by decide))
      (startsWith_diff 1 _ _ rfl rfl (by decide)) (startsWith_diff 0 _ _ rfl rfl (by decide))

theorem other_fold (ls : List Str) (h : ∀ l ∈ ls, OtherHeader l) (p : Parser) (hst : p.state = .preMeta) :
    (ls.map dropCR).foldlM Parser.line p = .ok p := by
  induction ls with
  | nil => rfl
  | cons l ls ih =>
    have hl := h l (by simp)
    obtain ⟨h1, h2⟩ := metaLine_other p l hl
    simp only [List.map_cons, List.foldlM_cons, dropCR_of_not_mem hl.1, meta_step p hst l h2, h1]
    exact ih (fun x hx => h x (by simp [hx]))

theorem metaLine_new (p : Parser) (m : Str) : p.metaLine (b!"new file mode " ++ m) = { p with newFile := b!"mode " ++ m } := by
  unfold Parser.metaLine metaValue
  rw [startsWith_diff (a := b!"new file mode ") (r := m) (pfx := b!"rename from" ++ b!" ") 0 _ _ rfl rfl (by decide),
    startsWith_diff (a := b!"new file mode ") (r := m) (pfx := b!"rename to" ++ b!" ") 0 _ _ rfl rfl (by decide),
    startsWith_diff (a := b!"new file mode ") (r := m) (pfx := b!"deleted file" ++ b!" ") 0 _ _ rfl rfl (by decide),
    startsWith_diff (a := b!"new file mode ") (r := m) (pfx := b!"Binary files" ++ b!" ") 0 _ _ rfl rfl (by decide),
    show b!"new file mode " ++ m = (b!"new file" ++ b!" ") ++ (b!"mode " ++ m) from rfl, startsWith_append]
  rfl

theorem metaLine_del (p : Parser) (m : Str) :
    p.metaLine (b!"deleted file mode " ++ m) = { p with deletedFile := b!"mode " ++ m } := by
  unfold Parser.metaLine metaValue
  rw [startsWith_diff (a := b!"deleted file mode ") (r := m) (pfx := b!"rename from" ++ b!" ") 0 _ _ rfl rfl (by decide),
    startsWith_diff (a := b!"deleted file mode ") (r := m) (pfx := b!"rename to" ++ b!" ") 0 _ _ rfl rfl (by decide),
    startsWith_diff (a := b!"deleted file mode ") (r := m) (pfx := b!"new file" ++ b!" ") 0 _ _ rfl rfl (by decide),
    startsWith_diff (a := b!"deleted file mode ") (r := m) (pfx := b!"Binary files" ++ b!" ") 0 _ _ rfl rfl (by decide),
    show b!"deleted file mode " ++ m = (b!"deleted file" ++ b!" ") ++ (b!"mode " ++ m) from rfl, startsWith_append]
  rfl

theorem metaLine_from (p : Parser) (m : Str) : p.metaLine (b!"rename from " ++ m) = { p with renameFrom := m } := by
  unfold Parser.metaLine metaValue
  rw [startsWith_diff (a := b!"rename from ") (r := m) (pfx := b!"new file" ++ b!" ") 0 _ _ rfl rfl (by decide),
    startsWith_diff (a := b!"rename from ") (r := m) (pfx := b!"rename to" ++ b!" ") 7 _ _ rfl rfl (by decide),
    startsWith_diff (a := b!"rename from ") (r := m) (pfx := b!"deleted file" ++ b!" ") 0 _ _ rfl rfl (by decide),
    startsWith_diff (a := b!"rename from ") (r := m) (pfx := b!"Binary files" ++ b!" ") 0 _ _ rfl rfl (by decide),
    show b!"rename from " ++ m = (b!"rename from" ++ b!" ") ++ m from rfl, startsWith_append]
  rfl

theorem metaLine_to (p : Parser) (m : Str) : p.metaLine (b!"rename to " ++ m) = { p with renameTo := m } := by
  unfold Parser.metaLine metaValue
  rw [startsWith_diff (a := b!"rename to ") (r := m) (pfx := b!"new file" ++ b!" ") 0 _ _ rfl rfl (by decide),
    startsWith_diff (a := b!"rename to ") (r := m) (pfx := b!"rename from" ++ b!" ") 7 _ _ rfl rfl (by decide),
    startsWith_diff (a := b!"rename to ") (r := m) (pfx := b!"deleted file" ++ b!" ") 0 _ _ rfl rfl (by decide),
    startsWith_diff (a := b!"rename to ") (r := m) (pfx := b!"Binary files" ++ b!" ") 0 _ _ rfl rfl (by decide),
    show b!"rename to " ++ m = (b!"rename to" ++ b!" ") ++ m from rfl, startsWith_append]
  rfl

theorem metaLine_bin (p : Parser) (m : Str) : p.metaLine (b!"Binary files " ++ m) = { p with binaryFiles := m } := by
  unfold Parser.metaLine metaValue
  rw [startsWith_diff (a := b!"Binary files ") (r := m) (pfx := b!"new file" ++ b!" ") 0 _ _ rfl rfl (by decide),
    startsWith_diff (a := b!"Binary files ") (r := m) (pfx := b!"rename from" ++ b!" ") 0 _ _ rfl rfl (by decide),
    startsWith_diff (a := b!"Binary files ") (r := m) (pfx := b!"deleted file" ++ b!" ") 0 _ _ rfl rfl (by decide),
    startsWith_diff (a := b!"Binary files ") (r := m) (pfx := b!"rename to" ++ b!" ") 0 _ _ rfl rfl (by decide),
    show b!"Binary files " ++ m = (b!"Binary files" ++ b!" ") ++ m from rfl, startsWith_append]
  rfl

theorem Spec.Plain.noCR {p : Str} (h : Plain p) : (13 : UInt8) ∉ p := by
  intro hc
  exact absurd (h.2 13 hc).1 (by decide)

theorem Spec.Plain.notQuoted {p : Str} (h : Plain p) : isQuoted p = false := by
  simp only [isQuoted, decide_eq_false_iff_not]
  intro hc
  exact (h.2 92 hc).2.2.1 rfl

theorem Spec.QuotedName.isQuoted {p : Str} (h : QuotedName p) : isQuoted p = true := by simpa [Spec.isQuoted] using h.1

theorem Spec.NameOk.noCR {p : Str} (h : NameOk p) : (13 : UInt8) ∉ p := by
  rcases h with h | h
  · exact h.noCR
  · intro hc
    exact absurd (h.2.2 13 hc).1 (by decide)

theorem decl_name (p : Str) (h : NameOk p) : parseDiffDecl (declLineQ (isQuoted p) (isQuoted p) p p) = .ok (p, p) := by
  rcases h with h | h
  · rw [h.notQuoted, ← declLine_eq]
    exact decl_same p h.1
  · have hs : (32 : UInt8) ∉ p := fun hc => absurd (h.2.2 32 hc).1 (by decide)
    exact decl_nospace _ _ p p (NameOk.ne (.inr h)) (NameOk.ne (.inr h)) hs hs

theorem nameText_noCR (pfx q : Str) (hp : (13 : UInt8) ∉ pfx) (hq : (13 : UInt8) ∉ q) : (13 : UInt8) ∉ nameText pfx q := by
  unfold nameText
  split
  · decide
  · have : (13 : UInt8) ∉ quoteIf (isQuoted q) (pfx ++ q) := by cases isQuoted q <;> simp [quoteIf, hp, hq]
    split <;> simp [this]

theorem Spec.ModeText.noCR {p : Str} (h : ModeText p) : (13 : UInt8) ∉ p := by
  intro hc
  exact absurd (h.2 13 hc).1 (by decide)

/-- The fields set by the kind-dependent header lines. -/
def Spec.Kind.setMeta (k : Kind) (p : Parser) : Parser :=
  match k with
  | .modify _ => p
  | .create _ m => { p with newFile := b!"mode " ++ m }
  | .delete _ m => { p with deletedFile := b!"mode " ++ m }
  | .rename a b => { p with renameFrom := a, renameTo := b }
  | .copy _ _ => p

/-- The lines of a copy are not looked at. -/
theorem copy_step (a : Str) (P : Parser) (hst : P.state = .preMeta) (h13 : (13 : UInt8) ∉ a) (h0 : a.head? = some 99) (h1 : a[1]? = some 111) : P.line (dropCR a) = .ok P := by
  rw [dropCR_of_not_mem h13]
  match a, h0, h1 with
  | x :: y :: r, h0, h1 =>
    simp only [List.head?_cons, Option.some.injEq] at h0
    simp only [List.getElem?_cons_succ, List.getElem?_cons_zero, Option.some.injEq] at h1
    subst h0 h1
    have hn : ∀ pfx : Str, pfx.head? ≠ some 99 → pfx ≠ [] → startsWith (99 :: 111 :: r) pfx = false := by
      intro pfx h hne
      cases pfx with
      | nil => exact absurd rfl hne
      | cons c t => exact startsWith_cons_ne (by simpa using fun hh : (99 : UInt8) = c => h (by rw [← hh]; rfl))
    rw [meta_step P hst _ (hn _ (by decide) (by decide))]
    unfold Parser.metaLine metaValue
    rw [hn (b!"new file" ++ b!" ") (by decide) (by decide), hn (b!"rename from" ++ b!" ") (by decide) (by decide), hn (b!"deleted file" ++ b!" ") (by decide) (by decide),
      hn (b!"rename to" ++ b!" ") (by decide) (by decide), hn (b!"Binary files" ++ b!" ") (by decide) (by decide)]
    rfl

theorem quoteIf_noCR (b : Bool) {s : Str} (h : (13 : UInt8) ∉ s) : (13 : UInt8) ∉ quoteIf b s := by
  cases b <;> simp [quoteIf, h]

theorem kind_fold (k : Kind) (hk : k.Ok) (p : Parser) (hst : p.state = .preMeta) :
    (k.lines.map dropCR).foldlM Parser.line p = .ok (k.setMeta p) := by
  cases k with
  | modify a => rfl
  | create a m =>
    have hcr : (13 : UInt8) ∉ b!"new file mode " ++ m := by simp [hk.2.noCR]
    simp only [Kind.lines, List.map_cons, List.map_nil, List.foldlM_cons, List.foldlM_nil, dropCR_of_not_mem hcr,
      meta_step p hst _ (startsWith_diff (a := b!"new file mode ") (r := m) 0 _ _ rfl rfl (by decide)), metaLine_new]
    rfl
  | delete a m =>
    have hcr : (13 : UInt8) ∉ b!"deleted file mode " ++ m := by simp [hk.2.noCR]
    simp only [Kind.lines, List.map_cons, List.map_nil, List.foldlM_cons, List.foldlM_nil, dropCR_of_not_mem hcr,
      meta_step p hst _ (startsWith_diff (a := b!"deleted file mode ") (r := m) 0 _ _ rfl rfl (by decide)), metaLine_del]
    rfl
  | rename a b =>
    have hcr1 : (13 : UInt8) ∉ b!"rename from " ++ a := by simp [hk.1.noCR]
    have hcr2 : (13 : UInt8) ∉ b!"rename to " ++ b := by simp [hk.2.noCR]
    simp only [Kind.lines, List.map_cons, List.map_nil, List.foldlM_cons, List.foldlM_nil, dropCR_of_not_mem hcr1,
      dropCR_of_not_mem hcr2,
      meta_step p hst _ (startsWith_diff (a := b!"rename from ") (r := a) 0 _ _ rfl rfl (by decide)), metaLine_from]
    simp only [bind, Except.bind]
    rw [meta_step { p with renameFrom := a } hst _ (startsWith_diff (a := b!"rename to ") (r := b) 0 _ _ rfl rfl (by decide)),
      metaLine_to]
    rfl
  | copy a b =>
    have e1 := copy_step (b!"copy from " ++ quoteIf (isQuoted a) a) p hst (by simp [quoteIf_noCR _ hk.1.noCR]) rfl rfl
    have e2 := copy_step (b!"copy to " ++ quoteIf (isQuoted b) b) p hst (by simp [quoteIf_noCR _ hk.2.1.noCR]) rfl rfl
    simp only [Kind.lines, List.map_cons, List.map_nil, List.foldlM_cons, List.foldlM_nil, bind, Except.bind, pure, Except.pure, e1, e2]
    rfl

theorem Spec.Kind.Ok.noCR {k : Kind} (hk : k.Ok) : (13 : UInt8) ∉ k.prev ∧ (13 : UInt8) ∉ k.next := by
  cases k with
  | modify a => exact ⟨NameOk.noCR hk, NameOk.noCR hk⟩
  | create a m => exact ⟨by simp [Kind.prev], hk.1.noCR⟩
  | delete a m => exact ⟨hk.1.noCR, by simp [Kind.next]⟩
  | rename a b => exact ⟨hk.1.noCR, hk.2.noCR⟩
  | copy a b => exact ⟨hk.1.noCR, hk.2.1.noCR⟩

/-- What the body adds to the parser, seen through `finishHunk`. -/
theorem body_lines_fold (k : Kind) (hk : (13 : UInt8) ∉ k.prev ∧ (13 : UInt8) ∉ k.next) (body : Body) (hb : body.Ok) (p : Parser) (hst : p.state = .preMeta)
    (hc : p.contexts = []) (hl : p.lines = []) (hbin : p.binaryFiles = []) :
    ∃ st bf p', ((body.lines k).map dropCR).foldlM Parser.line p = .ok p' ∧
      (bf ≠ [] ↔ body.isBinary = true) ∧
      p'.finishHunk = { p with
        state := st
        binaryFiles := bf
        res := p.res ++ body.hunks } := by
  have hfin : p.finishHunk = p := by
    cases p; simp only at hc hl; subst hc hl; simp [Parser.finishHunk]
  cases body with
  | empty => exact ⟨p.state, [], p, rfl, by simp [Body.isBinary], by rw [hfin]; cases p; simp only at hbin; subst hbin; simp [Body.hunks]⟩
  | binary =>
    have hcr : (13 : UInt8) ∉ b!"Binary files " ++ nameText b!"a/" k.prev ++ b!" and " ++ nameText b!"b/" k.next ++ b!" differ" := by
      simp only [List.mem_append, not_or]
      exact ⟨⟨⟨⟨by decide, nameText_noCR _ _ (by decide) hk.1⟩, by decide⟩, nameText_noCR _ _ (by decide) hk.2⟩, by decide⟩
    let bf := nameText b!"a/" k.prev ++ (b!" and " ++ (nameText b!"b/" k.next ++ b!" differ"))
    refine ⟨p.state, bf, { p with binaryFiles := bf }, ?_, by simp [Body.isBinary, bf], ?_⟩
    · simp only [Body.lines, List.map_cons, List.map_nil, List.foldlM_cons, List.foldlM_nil, dropCR_of_not_mem hcr]
      simp only [List.append_assoc]
      rw [meta_step p hst _ (startsWith_diff (a := b!"Binary files ") 0 _ _ rfl rfl (by decide)), metaLine_bin]
      rfl
    · cases p; simp only at hc hl; subst hc hl; simp [Parser.finishHunk, Body.hunks]
  | text cut heads =>
    obtain ⟨ho, hn⟩ := hb
    simp only [Cut.script, oldLines_append, oldLines_keep, newLines_append, newLines_keep, List.length_append] at ho hn
    have hcr : ∀ (pfx : Str) (r : Str), pfx ≠ [] → pfx.getLast? ≠ some 13 → ∃ t, dropCR (pfx ++ r) = pfx ++ t := by
      intro pfx r _ h2
      exact ⟨dropCR r, dropCR_append _ _ (Or.inr (dropCR_of_ne _ h2))⟩
    obtain ⟨t1, ht1⟩ := hcr b!"--- " (nameText b!"a/" k.prev) (by decide) (by decide)
    simp only [Body.lines, List.map_append, List.map_cons, List.map_nil, List.foldlM_append, List.foldlM_cons,
      List.foldlM_nil, ht1]
    have h1 : p.line (b!"--- " ++ t1) = .ok { p with state := .nextIsCurrName } := by
      unfold Parser.line
      rw [hst]
      simp only
      rw [show b!"--- " ++ t1 = b!"---" ++ (b!" " ++ t1) from rfl, startsWith_append]
      rfl
    have h2 : ∀ l, ({ p with state := .nextIsCurrName } : Parser).line l = .ok { p with state := .nextIsContext } := by
      intro l; rfl
    simp only [h1, h2, bind, Except.bind, pure, Except.pure]
    obtain ⟨st, p', hp', hf⟩ := segs_fold heads cut.segs 0 0 { p with state := .nextIsContext }
      (Or.inr ⟨rfl, hc, hl⟩) (by omega) (by omega)
    refine ⟨st, [], p', hp', by simp [Body.isBinary], ?_⟩
    rw [hf]
    cases p; simp only at hc hl hbin; subst hc hl hbin
    simp [Parser.finishHunk, Cut.hunks, Cut.norm, Body.hunks]

/-- The parser inverts the rendering of a file change. -/
theorem parse_change (f : FileChange) (hok : f.Ok) : parseDiff f.text = .ok f.meaning := by
  obtain ⟨hk, hbe, haf, hbo, hl⟩ := hok
  have hscan : scan incMaxLine f.text = (f.lines.map dropCR, false) :=
    scan_unlines incMaxLine f.lines (fun l h => (hl l h).1) (fun l h => (hl l h).2)
  have hne : f.text.length ≠ 0 := by
    simp [FileChange.text, FileChange.lines, unlines_cons, declLineQ]
  unfold parseDiff
  rw [if_neg hne, hscan]
  simp only [FileChange.lines, List.map_append, List.map_cons, List.map_nil, List.foldlM_append, List.foldlM_cons,
    List.foldlM_nil]
  -- names
  have hnames : f.kind.names.1 ≠ [] ∧ f.kind.names.2 ≠ [] ∧ (13 : UInt8) ∉ f.kind.names.1 ∧ (13 : UInt8) ∉ f.kind.names.2 := by
    cases hkk : f.kind with
    | modify a => rw [hkk] at hk; exact ⟨NameOk.ne hk, NameOk.ne hk, NameOk.noCR hk, NameOk.noCR hk⟩
    | create a m => rw [hkk] at hk; exact ⟨hk.1.ne, hk.1.ne, hk.1.noCR, hk.1.noCR⟩
    | delete a m => rw [hkk] at hk; exact ⟨hk.1.ne, hk.1.ne, hk.1.noCR, hk.1.noCR⟩
    | rename a b => rw [hkk] at hk; exact ⟨hk.1.1, hk.2.1, hk.1.noCR, hk.2.noCR⟩
    | copy a b => rw [hkk] at hk; exact ⟨hk.1.ne, hk.2.1.ne, hk.1.noCR, hk.2.1.noCR⟩
  have hdcr : dropCR (declLineQ (isQuoted f.kind.names.1) (isQuoted f.kind.names.2) f.kind.names.1 f.kind.names.2) =
      declLineQ (isQuoted f.kind.names.1) (isQuoted f.kind.names.2) f.kind.names.1 f.kind.names.2 := by
    apply dropCR_of_not_mem
    cases isQuoted f.kind.names.1 <;> cases isQuoted f.kind.names.2 <;> simp [declLineQ, quoteIf, hnames.2.2.1, hnames.2.2.2]
  have hdecl : ∃ a b, ({} : Parser).line (declLineQ (isQuoted f.kind.names.1) (isQuoted f.kind.names.2) f.kind.names.1 f.kind.names.2)
      = .ok { ({} : Parser) with state := .preMeta, pathPrev := a, path := b } ∧
      (f.kind.names.1 = f.kind.names.2 ∨ (∃ x y, f.kind = .copy x y) → a = f.kind.names.1 ∧ b = f.kind.names.2) := by
    unfold Parser.line
    simp only
    cases hkk : f.kind with
    | modify a => rw [hkk] at hk; rw [show (Kind.modify a).names = (a, a) from rfl, decl_name a hk]; exact ⟨a, a, rfl, fun _ => ⟨rfl, rfl⟩⟩
    | create a m => rw [hkk] at hk; rw [show (Kind.create a m).names = (a, a) from rfl, decl_name a hk.1]; exact ⟨a, a, rfl, fun _ => ⟨rfl, rfl⟩⟩
    | delete a m => rw [hkk] at hk; rw [show (Kind.delete a m).names = (a, a) from rfl, decl_name a hk.1]; exact ⟨a, a, rfl, fun _ => ⟨rfl, rfl⟩⟩
    | rename a b =>
      rw [hkk] at hk
      rw [show (Kind.rename a b).names = (a, b) from rfl, hk.1.notQuoted, hk.2.notQuoted, ← declLine_eq]
      rcases decl_any a b hk.1.1 hk.2.1 with ⟨r, hr⟩ | hr
      · rw [hr]
        refine ⟨r.1, r.2, rfl, fun heq => ?_⟩
        have heq : a = b := by rcases heq with h | ⟨_, _, h⟩ <;> first | exact h | cases h
        rw [← heq, decl_same _ hk.1.1] at hr
        cases hr
        exact ⟨rfl, heq⟩
      · rw [hr]
        refine ⟨[], [], rfl, fun heq => ?_⟩
        have heq : a = b := by rcases heq with h | ⟨_, _, h⟩ <;> first | exact h | cases h
        rw [← heq, decl_same _ hk.1.1] at hr
        cases hr
    | copy a b =>
      rw [hkk] at hk
      rw [show (Kind.copy a b).names = (a, b) from rfl, decl_nospace _ _ a b hk.1.ne hk.2.1.ne hk.2.2.1 hk.2.2.2]
      exact ⟨a, b, rfl, fun _ => ⟨rfl, rfl⟩⟩
  obtain ⟨a, b, hd1, hd2⟩ := hdecl
  let p1 : Parser := { ({} : Parser) with state := .preMeta, pathPrev := a, path := b }
  have hp2st : (f.kind.setMeta p1).state = .preMeta := by unfold Kind.setMeta; cases f.kind <;> rfl
  obtain ⟨st, bf, p', hp', hbf, hfin⟩ := body_lines_fold f.kind hk.noCR f.body hbo (f.kind.setMeta p1) hp2st
    (by unfold Kind.setMeta; cases f.kind <;> rfl) (by unfold Kind.setMeta; cases f.kind <;> rfl)
    (by unfold Kind.setMeta; cases f.kind <;> rfl)
  simp only [hdcr, hd1, bind, Except.bind, pure, Except.pure]
  have e1 := other_fold f.before hbe p1 rfl
  have e2 := kind_fold f.kind hk p1 rfl
  have e3 := other_fold f.after haf (f.kind.setMeta p1) hp2st
  simp only [p1] at e1 e2 e3 hp'
  rw [e1]; simp only
  rw [e2]; simp only
  rw [e3]; simp only
  rw [hp']; simp only [Bool.false_eq_true, if_false]
  unfold Parser.finish
  rw [hfin]
  unfold FileChange.meaning
  have hB : f.body.isBinary = !decide (bf = []) := by
    by_cases h : bf = []
    · have : ¬ f.body.isBinary = true := fun hh => (hbf.2 hh) h
      simpa [h] using this
    · simp [h, hbf.1 h]
  generalize hH : f.body.hunks = H
  rw [hB]
  clear hfin e1 e2 e3 hp' hd1 hdcr hscan hl hbo hbe haf hbf hB hp2st
  cases hkk : f.kind with
  | modify q =>
    rw [hkk] at hd2
    obtain ⟨rfl, rfl⟩ := hd2 (.inl rfl)
    by_cases h : bf = [] <;>
      simp [h, p1, Kind.setMeta, Kind.prev, Kind.next, Kind.isDelete, Except.map]
  | create q m =>
    rw [hkk] at hd2
    obtain ⟨rfl, rfl⟩ := hd2 (.inl rfl)
    by_cases h : bf = [] <;>
      simp [h, p1, Kind.setMeta, Kind.prev, Kind.next, Kind.isDelete, Except.map]
  | delete q m =>
    rw [hkk] at hd2
    obtain ⟨rfl, rfl⟩ := hd2 (.inl rfl)
    by_cases h : bf = [] <;>
      simp [h, p1, Kind.setMeta, Kind.prev, Kind.next, Kind.isDelete, Except.map]
  | rename q r =>
    rw [hkk] at hk
    have h1 := hk.1.1
    have h2 := hk.2.1
    by_cases h : bf = [] <;>
      simp [h, h1, h2, p1, Kind.setMeta, Kind.prev, Kind.next, Kind.isDelete, Except.map]
  | copy q r =>
    rw [hkk] at hd2
    obtain ⟨rfl, rfl⟩ := hd2 (.inr ⟨_, _, rfl⟩)
    by_cases h : bf = [] <;>
      simp [h, p1, Kind.setMeta, Kind.names, Kind.prev, Kind.next, Kind.isDelete, Except.map]

end Ripsrc
