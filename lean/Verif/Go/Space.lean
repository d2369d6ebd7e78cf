import Verif.Go.Bytes
/-!
# `strings.TrimSpace`

The package `strings` of Go is not in `/repo`. `TrimSpace` removes the code points with the property `White_Space` from both ends. In UTF-8 these are the byte
sequences `spaceRunes`; no sequence is a prefix or a suffix of another, and a byte of a longer one is never ASCII, so that decoding from the left or from the right
finds them exactly where they stand as bytes.
-/
namespace Ripsrc

/-- ASCII white space. -/
def isSpaceByte (b : UInt8) : Bool := b = 32 || b = 9 || b = 10 || b = 11 || b = 12 || b = 13

/-- White space in UTF-8: ASCII; U+0085, U+00A0; U+1680; U+2000 to U+200A, U+2028, U+2029, U+202F; U+205F; U+3000. -/
def spaceRunes : List Str :=
  [
   [32], [9], [10], [11], [12], [13], [0xC2, 0x85], [0xC2, 0xA0], [0xE1, 0x9A, 0x80], [0xE2, 0x80, 0x80], [0xE2, 0x80, 0x81], [0xE2, 0x80, 0x82],
   [0xE2, 0x80, 0x83], [0xE2, 0x80, 0x84], [0xE2, 0x80, 0x85], [0xE2, 0x80, 0x86], [0xE2, 0x80, 0x87], [0xE2, 0x80, 0x88], [0xE2, 0x80, 0x89],
   [0xE2, 0x80, 0x8A], [0xE2, 0x80, 0xA8], [0xE2, 0x80, 0xA9], [0xE2, 0x80, 0xAF], [0xE2, 0x81, 0x9F], [0xE3, 0x80, 0x80]]

/-- Removes words from the front, as long as there is one; `k` more bytes belong to the current word. -/
def trimFrom (ws : List Str) : Nat → Str → Str
  | _, [] => []
  | k + 1, _ :: s => trimFrom ws k s
  | 0, b :: s => match ws.find? (fun w => w.isPrefixOf (b :: s)) with
    | none => b :: s
    | some w => trimFrom ws (w.length - 1) s

/-- `strings.TrimSpace`. -/
def trimSpace (s : Str) : Str := (trimFrom (spaceRunes.map List.reverse) 0 (trimFrom spaceRunes 0 s).reverse).reverse

/-- No white space at the ends. -/
def Trimmed (s : Str) : Prop := ∀ w ∈ spaceRunes, ¬ w <+: s ∧ ¬ w <:+ s

instance (s : Str) : Decidable (Trimmed s) := by unfold Trimmed; infer_instance

/-- Nothing but white space. -/
def AllSpace (s : Str) : Prop := ∃ ws : List Str, (∀ w ∈ ws, w ∈ spaceRunes) ∧ s = ws.flatten

theorem trimFrom_id {ws : List Str} {s : Str} (h : ∀ w ∈ ws, ¬ w <+: s) : trimFrom ws 0 s = s := by
  cases s with
  | nil => rfl
  | cons b s =>
    have : ws.find? (fun w => w.isPrefixOf (b :: s)) = none := by
      rw [List.find?_eq_none]
      intro w hw hp
      exact h w hw (List.isPrefixOf_iff_prefix.1 hp)
    simp only [trimFrom, this]

theorem trimFrom_one {ws : List Str} {b : UInt8} (hb : [b] ∈ ws) (hu : ∀ w ∈ ws, w.head? = some b → w = [b]) (hne : [] ∉ ws) (s : Str) :
    trimFrom ws 0 (b :: s) = trimFrom ws 0 s := by
  have : ws.find? (fun w => w.isPrefixOf (b :: s)) = some [b] := by
    cases hf : ws.find? (fun w => w.isPrefixOf (b :: s)) with
    | none =>
      have := List.find?_eq_none.1 hf [b] hb
      simp at this
    | some w =>
      have hm := List.mem_of_find?_eq_some hf
      have hp := List.find?_some hf
      cases w with
      | nil => exact absurd hm hne
      | cons c w =>
        simp only [List.isPrefixOf, Bool.and_eq_true, beq_iff_eq] at hp
        rw [hu _ hm (by rw [hp.1]; rfl)]
  simp only [trimFrom, this, List.length_singleton, Nat.sub_self]

theorem trimFrom_ones {ws : List Str} {a : Str} (hb : ∀ b ∈ a, [b] ∈ ws) (hu : ∀ b ∈ a, ∀ w ∈ ws, w.head? = some b → w = [b]) (hne : [] ∉ ws) (s : Str) :
    trimFrom ws 0 (a ++ s) = trimFrom ws 0 s := by
  induction a with
  | nil => rfl
  | cons b a ih =>
    rw [List.cons_append, trimFrom_one (hb b (by simp)) (hu b (by simp)) hne]
    exact ih (fun c hc => hb c (by simp [hc])) (fun c hc => hu c (by simp [hc]))

/-- What was removed is a sequence of words; what is left begins with none. -/
theorem trimFrom_spec {ws : List Str} (hne : [] ∉ ws) (s : Str) : ∀ k, k ≤ s.length → ∃ l : List Str, (∀ w ∈ l, w ∈ ws) ∧ s = s.take k ++ (l.flatten ++ trimFrom ws k s) ∧
    ∀ w ∈ ws, ¬ w <+: trimFrom ws k s := by
  induction s with
  | nil =>
    intro k hk
    refine ⟨[], by simp, by simp [trimFrom], ?_⟩
    intro w hw hp
    simp only [trimFrom] at hp
    rw [List.prefix_nil.1 hp] at hw
    exact hne hw
  | cons b s ih =>
    intro k hk
    cases k with
    | succ k =>
      obtain ⟨l, h1, h2, h3⟩ := ih k (by simpa using hk)
      refine ⟨l, h1, ?_, h3⟩
      simp only [trimFrom, List.take_succ_cons, List.cons_append]
      rw [← h2]
    | zero =>
      cases hf : ws.find? (fun w => w.isPrefixOf (b :: s)) with
      | none =>
        refine ⟨[], by simp, by simp [trimFrom, hf], ?_⟩
        intro w hw hp
        simp only [trimFrom, hf] at hp
        have := List.find?_eq_none.1 hf w hw
        exact this (List.isPrefixOf_iff_prefix.2 hp)
      | some w =>
        have hm := List.mem_of_find?_eq_some hf
        have hp := List.isPrefixOf_iff_prefix.1 (List.find?_some (p := fun (x : Str) => x.isPrefixOf _) hf)
        cases w with
        | nil => exact absurd hm hne
        | cons c w =>
          obtain ⟨r, hr⟩ := hp
          rw [List.cons_append] at hr
          cases hr
          have hlen : w.length ≤ (w ++ r).length := by simp
          obtain ⟨l, h1, h2, h3⟩ := ih w.length hlen
          refine ⟨(b :: w) :: l, ?_, ?_, ?_⟩
          · intro x hx
            rcases List.mem_cons.1 hx with rfl | hx
            · exact hm
            · exact h1 x hx
          · simp only [trimFrom, hf, List.take_zero, List.nil_append, List.length_cons, Nat.add_sub_cancel, List.flatten_cons, List.cons_append, List.append_assoc]
            rw [List.take_left] at h2
            rw [← h2]
          · simp only [trimFrom, hf, List.length_cons, Nat.add_sub_cancel]
            exact h3

theorem find?_same {α : Type} {p q : α → Bool} {l : List α} (h : ∀ a ∈ l, p a = q a) : l.find? p = l.find? q := by
  induction l with
  | nil => rfl
  | cons a l ih =>
    simp only [List.find?_cons, h a (by simp)]
    rw [ih (fun b hb => h b (by simp [hb]))]

/-- A byte that is in no longer word, at the end, is not crossed. -/
theorem trimFrom_append {ws : List Str} {v : Str} (hlong : ∀ w ∈ ws, ∀ c ∈ v, c ∈ w → w = [c]) (s : Str) : ∀ k, k ≤ s.length →
    (trimFrom ws k s = [] ∧ trimFrom ws k (s ++ v) = trimFrom ws 0 v) ∨ (trimFrom ws k s ≠ [] ∧ trimFrom ws k (s ++ v) = trimFrom ws k s ++ v) := by
  induction s with
  | nil =>
    intro k hk
    have : k = 0 := by simpa using hk
    subst this
    simp [trimFrom]
  | cons b s ih =>
    intro k hk
    cases k with
    | succ k =>
      simp only [List.cons_append, trimFrom]
      exact ih k (by simpa using hk)
    | zero =>
      have hsame : ∀ w ∈ ws, w.isPrefixOf (b :: s ++ v) = w.isPrefixOf (b :: s) := by
        intro w hw
        rw [Bool.eq_iff_iff, List.isPrefixOf_iff_prefix, List.isPrefixOf_iff_prefix]
        constructor
        · intro hp
          by_cases hl : w.length ≤ (b :: s).length
          · exact List.prefix_of_prefix_length_le hp (List.prefix_append _ _) hl
          · exfalso
            have hp2 : (b :: s) <+: w := List.prefix_of_prefix_length_le (List.prefix_append _ _) hp (by omega)
            obtain ⟨r, rfl⟩ := hp2
            obtain ⟨q, hq⟩ := hp
            rw [List.append_assoc] at hq
            have hq := List.append_cancel_left hq
            cases r with
            | nil => simp at hl
            | cons c r =>
              have hc : c ∈ v := by rw [← hq]; simp
              have := hlong _ hw c hc (by simp)
              have := congrArg List.length this
              simp at this
        · intro hp; exact hp.trans (List.prefix_append _ _)
      have hf : ws.find? (fun w => w.isPrefixOf (b :: s ++ v)) = ws.find? (fun w => w.isPrefixOf (b :: s)) := by
        exact find?_same hsame
      simp only [List.cons_append] at hf ⊢
      simp only [trimFrom, hf]
      generalize hg : ws.find? (fun w => w.isPrefixOf (b :: s)) = o
      cases o with
      | none => simp
      | some w =>
        have hp := List.isPrefixOf_iff_prefix.1 (List.find?_some (p := fun (x : Str) => x.isPrefixOf _) hg)
        exact ih _ (by have := hp.length_le; simp at this; omega)

/-! ## ASCII white space -/

theorem byte_cases {P : UInt8 → Prop} [DecidablePred P] (h : (List.range 256).all (fun n => decide (P (UInt8.ofNat n))) = true) (b : UInt8) : P b := by
  have h1 := List.all_eq_true.1 h b.toNat (List.mem_range.2 b.toNat_lt)
  have h2 := of_decide_eq_true h1
  rwa [UInt8.ofNat_toNat] at h2

theorem spaceByte_mem {b : UInt8} : isSpaceByte b = true → [b] ∈ spaceRunes := byte_cases (P := fun b => isSpaceByte b = true → [b] ∈ spaceRunes) (by decide +kernel) b
theorem spaceByte_head : ∀ b : UInt8, isSpaceByte b = true → ∀ w ∈ spaceRunes, w.head? = some b → w = [b] := byte_cases (by decide +kernel)
theorem spaceByte_last : ∀ b : UInt8, isSpaceByte b = true → ∀ w ∈ spaceRunes.map List.reverse, w.head? = some b → w = [b] := byte_cases (by decide +kernel)
theorem ascii_long : ∀ b : UInt8, b < 128 → ∀ w ∈ spaceRunes, b ∈ w → w = [b] := byte_cases (by decide +kernel)
theorem ascii_long_rev : ∀ b : UInt8, b < 128 → ∀ w ∈ spaceRunes.map List.reverse, b ∈ w → w = [b] := byte_cases (by decide +kernel)
theorem ascii_space : ∀ b : UInt8, b < 128 → [b] ∈ spaceRunes → isSpaceByte b = true := byte_cases (by decide +kernel)
theorem space_ascii : ∀ b : UInt8, isSpaceByte b = true → b < 128 := byte_cases (by decide +kernel)
theorem nil_runes : [] ∉ spaceRunes := by decide
theorem nil_runes_rev : [] ∉ spaceRunes.map List.reverse := by decide

theorem mem_rev {w : Str} : w ∈ spaceRunes.map List.reverse ↔ w.reverse ∈ spaceRunes := by
  rw [List.mem_map]
  constructor
  · rintro ⟨x, hx, rfl⟩; rwa [List.reverse_reverse]
  · intro h; exact ⟨_, h, List.reverse_reverse w⟩

theorem trimSpace_trimmed {s : Str} (h : Trimmed s) : trimSpace s = s := by
  unfold trimSpace
  rw [trimFrom_id (fun w hw => (h w hw).1), trimFrom_id, List.reverse_reverse]
  intro w hw hp
  refine (h _ (mem_rev.1 hw)).2 ?_
  rw [← List.reverse_prefix, List.reverse_reverse]
  exact hp

/-- White space in front does not matter. -/
theorem trimSpace_left {a : Str} (ha : ∀ b ∈ a, isSpaceByte b = true) (s : Str) : trimSpace (a ++ s) = trimSpace s := by
  unfold trimSpace
  rw [trimFrom_ones (fun b hb => spaceByte_mem (ha b hb)) (fun b hb => spaceByte_head b (ha b hb)) nil_runes]

/-- White space at the end does not matter. -/
theorem trimSpace_append {s w : Str} (hw : ∀ b ∈ w, isSpaceByte b = true) : trimSpace (s ++ w) = trimSpace s := by
  unfold trimSpace
  have h0 : trimFrom spaceRunes 0 w = [] := by
    have := trimFrom_ones (ws := spaceRunes) (a := w) (fun b hb => spaceByte_mem (hw b hb)) (fun b hb => spaceByte_head b (hw b hb)) nil_runes []
    rwa [List.append_nil] at this
  rcases trimFrom_append (fun x hx c hc => ascii_long c (space_ascii c (hw c hc)) x hx) s 0 (Nat.zero_le _) with ⟨h, h'⟩ | ⟨h, h'⟩
  · rw [h', h0, h]
  · rw [h', List.reverse_append]
    congr 1
    refine trimFrom_ones ?_ ?_ nil_runes_rev _
    · intro b hb
      rw [mem_rev]
      exact spaceByte_mem (hw b (List.mem_reverse.1 hb))
    · intro b hb
      exact spaceByte_last b (hw b (List.mem_reverse.1 hb))

theorem trimSpace_white {s : Str} (h : ∀ b ∈ s, isSpaceByte b = true) : trimSpace s = [] := by
  have := trimSpace_left h []
  rw [List.append_nil] at this
  rw [this]; rfl

/-- A text between two ASCII characters that are not white space. -/
theorem trimSpace_id {s : Str} {c d : UInt8} {t u : Str} (h1 : s = c :: t) (h2 : s = u ++ [d]) (hc : isSpaceByte c = false ∧ c < 128)
    (hd : isSpaceByte d = false ∧ d < 128) : trimSpace s = s := by
  refine trimSpace_trimmed (fun w hw => ⟨?_, ?_⟩)
  · rintro ⟨r, hr⟩
    cases w with
    | nil => exact nil_runes hw
    | cons x w =>
      rw [h1, List.cons_append] at hr
      cases hr
      have := ascii_long c hc.2 _ hw (by simp)
      rw [this] at hw
      rw [ascii_space c hc.2 hw] at hc
      exact absurd hc.1 (by decide)
  · rintro ⟨r, hr⟩
    rcases List.eq_nil_or_concat w with rfl | ⟨w', x, rfl⟩
    · exact nil_runes hw
    · rw [h2, List.concat_eq_append, ← List.append_assoc] at hr
      have hx := (List.append_inj' hr rfl).2
      cases hx
      rw [List.concat_eq_append] at hw
      have := ascii_long d hd.2 _ hw (by simp)
      rw [this] at hw
      rw [ascii_space d hd.2 hw] at hd
      exact absurd hd.1 (by decide)

/-- A word without white space in ASCII. -/
theorem ascii_trimmed {s : Str} (h : ∀ b ∈ s, isSpaceByte b = false ∧ b < 128) : Trimmed s := by
  have key : ∀ w ∈ spaceRunes, ∀ b ∈ w, b ∉ s := by
    intro w hw b hb hs
    have := ascii_long b (h b hs).2 w hw hb
    rw [this] at hw
    have := ascii_space b (h b hs).2 hw
    rw [(h b hs).1] at this
    cases this
  intro w hw
  cases w with
  | nil => exact absurd hw nil_runes
  | cons x w => exact ⟨fun hp => key _ hw x (by simp) (hp.subset (by simp)), fun hp => key _ hw x (by simp) (hp.subset (by simp))⟩

/-- A trimmed text on a line of its own. -/
theorem trimSpace_line {s : Str} (h : Trimmed s) : trimSpace (s ++ [10]) = s := by
  rw [trimSpace_append (by decide), trimSpace_trimmed h]

theorem trimSpace_word {s : Str} (h : Trimmed s) : trimSpace (s ++ [10]) = s := trimSpace_line h

/-- An ASCII character that is no white space stays the first one. -/
theorem trimSpace_keeps (sp t : Str) {c : UInt8} (h : ∀ b ∈ sp, isSpaceByte b = true) (hc : isSpaceByte c = false ∧ c < 128) : ∃ u, trimSpace (sp ++ c :: t) = c :: u := by
  rw [trimSpace_left h]
  have hno : ∀ w ∈ spaceRunes, c ∉ w := by
    intro w hw hm
    have := ascii_long c hc.2 w hw hm
    rw [this] at hw
    rw [ascii_space c hc.2 hw] at hc
    exact absurd hc.1 (by decide)
  unfold trimSpace
  rw [trimFrom_id (s := c :: t)]
  · rw [List.reverse_cons]
    have h1 : trimFrom (spaceRunes.map List.reverse) 0 [c] = [c] := by
      refine trimFrom_id (fun w hw hp => ?_)
      cases w with
      | nil => exact nil_runes_rev hw
      | cons x w =>
        have := hp.subset (List.mem_cons_self)
        rw [List.mem_singleton.1 this] at hw
        exact hno _ (mem_rev.1 hw) (by simp)
    rcases trimFrom_append (ws := spaceRunes.map List.reverse) (v := [c]) (fun w hw d hd hm => by
      rw [List.mem_singleton.1 hd] at hm
      exact absurd (List.mem_reverse.2 hm) (hno _ (mem_rev.1 hw))) t.reverse 0 (Nat.zero_le _) with ⟨h2, h3⟩ | ⟨h2, h3⟩
    · rw [h3, h1]; exact ⟨[], rfl⟩
    · rw [h3, List.reverse_append]; exact ⟨_, rfl⟩
  · intro w hw hp
    cases w with
    | nil => exact nil_runes hw
    | cons x w =>
      obtain ⟨r, hr⟩ := hp
      rw [List.cons_append] at hr
      cases hr
      exact hno _ hw (by simp)

/-! ## The general statement -/

theorem flatten_reverse_map (l : List Str) : (l.map List.reverse).flatten.reverse = l.reverse.flatten := by
  induction l with
  | nil => rfl
  | cons a l ih => simp [ih]

/-- White space is removed from both ends, all of it, and nothing else. -/
theorem trimSpace_spec (s : Str) : ∃ a c, AllSpace a ∧ AllSpace c ∧ s = a ++ (trimSpace s ++ c) ∧ Trimmed (trimSpace s) := by
  obtain ⟨l, h1, h2, h3⟩ := trimFrom_spec nil_runes s 0 (Nat.zero_le _)
  obtain ⟨m, g1, g2, g3⟩ := trimFrom_spec nil_runes_rev (trimFrom spaceRunes 0 s).reverse 0 (Nat.zero_le _)
  simp only [List.take_zero, List.nil_append] at h2 g2
  have hts : trimFrom spaceRunes 0 s = trimSpace s ++ m.flatten.reverse := by
    have := congrArg List.reverse g2
    rw [List.reverse_reverse, List.reverse_append] at this
    exact this
  refine ⟨l.flatten, m.flatten.reverse, ⟨l, h1, rfl⟩, ⟨(m.map List.reverse).reverse, ?_, ?_⟩, ?_, ?_⟩
  · intro w hw
    obtain ⟨x, hx, rfl⟩ := List.mem_map.1 (List.mem_reverse.1 hw)
    exact mem_rev.1 (g1 x hx)
  · rw [← flatten_reverse_map, List.map_map]
    simp [Function.comp_def]
  · rw [← hts, ← h2]
  · intro w hw
    constructor
    · intro hp
      exact h3 w hw (by rw [hts]; exact hp.trans (List.prefix_append _ _))
    · intro hp
      refine g3 w.reverse (mem_rev.2 (by rwa [List.reverse_reverse])) ?_
      unfold trimSpace at hp
      rw [← List.reverse_prefix, List.reverse_reverse] at hp
      exact hp

theorem spaceRunes_prefix_free : ∀ w ∈ spaceRunes, ∀ x ∈ spaceRunes, w <+: x → w = x := by decide +kernel

/-- Nothing is left exactly if there was nothing but white space. -/
theorem trimSpace_nil_iff (s : Str) : trimSpace s = [] ↔ AllSpace s := by
  constructor
  · intro h
    obtain ⟨a, c, ⟨l, h1, rfl⟩, ⟨m, h2, rfl⟩, h3, -⟩ := trimSpace_spec s
    rw [h, List.nil_append] at h3
    refine ⟨l ++ m, ?_, by rw [List.flatten_append]; exact h3⟩
    intro w hw
    rcases List.mem_append.1 hw with hw | hw
    · exact h1 w hw
    · exact h2 w hw
  · rintro ⟨l, h1, rfl⟩
    have key : trimFrom spaceRunes 0 l.flatten = [] := by
      induction l with
      | nil => rfl
      | cons w l ih =>
        have hw := h1 w (by simp)
        cases w with
        | nil => exact absurd hw nil_runes
        | cons b w =>
          have hf : spaceRunes.find? (fun x => x.isPrefixOf (b :: (w ++ l.flatten))) = some (b :: w) := by
            cases hf : spaceRunes.find? (fun x => x.isPrefixOf (b :: (w ++ l.flatten))) with
            | none =>
              have := List.find?_eq_none.1 hf _ hw
              exact absurd (List.isPrefixOf_iff_prefix.2 (List.prefix_append (b :: w) l.flatten)) this
            | some x =>
              have hm := List.mem_of_find?_eq_some hf
              have hp := List.isPrefixOf_iff_prefix.1 (List.find?_some (p := fun (x : Str) => x.isPrefixOf _) hf)
              have hq : (b :: w) <+: b :: (w ++ l.flatten) := List.prefix_append (b :: w) l.flatten
              by_cases hl : x.length ≤ (b :: w).length
              · rw [spaceRunes_prefix_free x hm _ hw (List.prefix_of_prefix_length_le hp hq hl)]
              · rw [spaceRunes_prefix_free _ hw x hm (List.prefix_of_prefix_length_le hq hp (by omega))]
          simp only [List.flatten_cons, List.cons_append, trimFrom, hf, List.length_cons, Nat.add_sub_cancel]
          have skip : ∀ (u v : Str), trimFrom spaceRunes u.length (u ++ v) = trimFrom spaceRunes 0 v := by
            intro u v
            induction u with
            | nil => rfl
            | cons x u ih => simpa [trimFrom] using ih
          rw [skip]
          exact ih (fun x hx => h1 x (by simp [hx]))
    unfold trimSpace
    rw [key]
    rfl

/-- A text with an ASCII character that is no white space. -/
theorem trimSpace_ne_nil {s : Str} {b : UInt8} (hb : b ∈ s) (h : isSpaceByte b = false ∧ b < 128) : trimSpace s ≠ [] := by
  intro hn
  obtain ⟨l, h1, rfl⟩ := (trimSpace_nil_iff s).1 hn
  obtain ⟨w, hw, hm⟩ := List.mem_flatten.1 hb
  have := ascii_long b h.2 w (h1 w hw) hm
  have hw := h1 w hw
  rw [this] at hw
  rw [ascii_space b h.2 hw] at h
  exact absurd h.1 (by decide)

example : trimSpace b!" \t a b\n" = b!"a b" := by decide
/-- A no-break space is removed, the letter `à` (which ends with the same byte) is not. -/
example : trimSpace [0xC2, 0xA0, 0xC3, 0xA0, 10] = [0xC3, 0xA0] := by decide
example : Trimmed b!"a b" ∧ Trimmed [0xC3, 0xA0] ∧ ¬ Trimmed [0xC3, 0xA0, 0xE3, 0x80, 0x80] := by decide

end Ripsrc
