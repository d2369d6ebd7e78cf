import Verif.Lib.MsgPack
/-!
# Numbers, keys, sequences, skipping
-/
namespace Ripsrc
open Spec

theorem readUint_exact : Exact readUint IsUint := by
  intro bs u rest
  have u64 : ∀ l : Str, l.length ≤ 8 → (UInt64.ofNat (number l)).toNat = number l := by
    intro l hl
    have h1 := number_lt l
    have h2 : 256 ^ l.length ≤ 256 ^ 8 := Nat.pow_le_pow_right (by omega) hl
    rw [UInt64.toNat_ofNat']
    exact Nat.mod_eq_of_lt (by omega)
  constructor
  · intro h
    cases bs with
    | nil => cases h
    | cons lead r =>
      have un : ∀ k, (lead, k) ∈ ([(0xcc, 1), (0xcd, 2), (0xce, 4), (0xcf, 8)] : List (UInt8 × Nat)) →
          (nextNum k (lead :: r)).bind (fun n r => Dec.ok (UInt64.ofNat n) r) = .ok u rest → ∃ b, IsUint u b ∧ lead :: r = b ++ rest := by
        intro k hk h
        cases hn : nextNum k (lead :: r) with
        | eof => rw [hn] at h; cases h
        | bad => rw [hn] at h; cases h
        | ok n r1 =>
          rw [hn] at h
          simp only [Dec.bind, Dec.ok.injEq] at h
          obtain ⟨rfl, rfl⟩ := h
          obtain ⟨l, h1, rfl, rfl⟩ := (nextNum_exact _ _ _ _ _).1 hn
          have h8 : l.length ≤ 8 := by
            simp only [List.mem_cons, Prod.mk.injEq, List.not_mem_nil, or_false] at hk
            omega
          exact ⟨lead :: l, .inr (.inl (by rw [u64 l h8]; exact .mk hk h1)), rfl⟩
      have si : ∀ k, (lead, k) ∈ ([(0xd0, 1), (0xd1, 2), (0xd2, 4), (0xd3, 8)] : List (UInt8 × Nat)) →
          (nextNum k (lead :: r)).bind (fun n r => if n < 256 ^ k / 2 then Dec.ok (UInt64.ofNat n) r else .bad) = .ok u rest → ∃ b, IsUint u b ∧ lead :: r = b ++ rest := by
        intro k hk h
        cases hn : nextNum k (lead :: r) with
        | eof => rw [hn] at h; cases h
        | bad => rw [hn] at h; cases h
        | ok n r1 =>
          rw [hn] at h
          simp only [Dec.bind] at h
          split at h
          · rename_i hlt
            simp only [Dec.ok.injEq] at h
            obtain ⟨rfl, rfl⟩ := h
            obtain ⟨l, h1, rfl, rfl⟩ := (nextNum_exact _ _ _ _ _).1 hn
            have h8 : l.length ≤ 8 := by
              simp only [List.mem_cons, Prod.mk.injEq, List.not_mem_nil, or_false] at hk
              omega
            refine ⟨lead :: l, .inr (.inr ⟨by rw [u64 l h8]; exact .mk hk h1, ?_⟩), rfl⟩
            rw [u64 l h8, List.length_cons, Nat.add_sub_cancel, h1]
            omega
          · cases h
      simp only [readUint] at h
      split at h
      · rename_i hl
        simp only [Dec.ok.injEq] at h
        obtain ⟨rfl, rfl⟩ := h
        have hl' : lead.toNat < 128 := UInt8.lt_iff_toNat_lt.1 hl
        have e : (UInt64.ofNat lead.toNat).toNat = lead.toNat := by rw [UInt64.toNat_ofNat']; exact Nat.mod_eq_of_lt (by omega)
        refine ⟨[lead], .inl ⟨by omega, ?_⟩, rfl⟩
        rw [e]; simp
      · split at h
        · rename_i hl; subst hl; exact un 1 (by simp) h
        · split at h
          · rename_i hl; subst hl; exact un 2 (by simp) h
          · split at h
            · rename_i hl; subst hl; exact un 4 (by simp) h
            · split at h
              · rename_i hl; subst hl; exact un 8 (by simp) h
              · split at h
                · rename_i hl; subst hl; exact si 1 (by simp) h
                · split at h
                  · rename_i hl; subst hl; exact si 2 (by simp) h
                  · split at h
                    · rename_i hl; subst hl; exact si 4 (by simp) h
                    · split at h
                      · rename_i hl; subst hl; exact si 8 (by simp) h
                      · cases h
  · rintro ⟨b, hh | hh | ⟨hh, hlt⟩, rfl⟩
    · obtain ⟨hn, rfl⟩ := hh
      have h1 : (UInt8.ofNat u.toNat).toNat = u.toNat := u8_toNat (by omega)
      have h2 : UInt8.ofNat u.toNat < 0x80 := by
        rw [UInt8.lt_iff_toNat_lt, h1]; exact hn
      simp only [List.cons_append, List.nil_append, readUint]
      rw [if_pos h2, h1]
      simp
    · generalize hu : u.toNat = n at hh
      cases hh with
      | @mk lead k l hk hl =>
        have := (nextNum_exact lead k (l ++ rest) _ rest).2 ⟨l, hl, rfl, rfl⟩
        have e : UInt64.ofNat (number l) = u := by rw [← hu]; simp
        simp only [List.mem_cons, Prod.mk.injEq, List.not_mem_nil, or_false] at hk
        rcases hk with ⟨rfl, rfl⟩ | ⟨rfl, rfl⟩ | ⟨rfl, rfl⟩ | ⟨rfl, rfl⟩ <;> simp [readUint, this, Dec.bind, e]
    · generalize hu : u.toNat = n at hh
      cases hh with
      | @mk lead k l hk hl =>
        have := (nextNum_exact lead k (l ++ rest) _ rest).2 ⟨l, hl, rfl, rfl⟩
        have e : UInt64.ofNat (number l) = u := by rw [← hu]; simp
        rw [hu, List.length_cons, Nat.add_sub_cancel, hl] at hlt
        simp only [List.mem_cons, Prod.mk.injEq, List.not_mem_nil, or_false] at hk
        rcases hk with ⟨rfl, rfl⟩ | ⟨rfl, rfl⟩ | ⟨rfl, rfl⟩ | ⟨rfl, rfl⟩ <;> simp [readUint, this, Dec.bind, e] <;> omega

theorem nextKey_exact (k : Nat) : Exact (nextKey k) (fun s b => b = s ∧ s.length = k ∧ s ≠ []) := by
  intro bs a rest
  unfold nextKey
  by_cases h0 : k = 0
  · rw [if_pos h0]
    constructor
    · intro h; cases h
    · rintro ⟨b, ⟨rfl, h1, h2⟩, rfl⟩
      rw [h0] at h1
      exact absurd (List.length_eq_zero_iff.1 h1) h2
  · rw [if_neg h0, next_exact k bs a rest]
    constructor
    · rintro ⟨b, ⟨rfl, h1⟩, rfl⟩
      exact ⟨b, ⟨rfl, h1, by rintro rfl; exact h0 h1.symm⟩, rfl⟩
    · rintro ⟨b, ⟨rfl, h1, _⟩, rfl⟩
      exact ⟨b, ⟨rfl, h1⟩, rfl⟩

theorem sizedKey_exact (lead : UInt8) (k : Nat) (r : Str) (s rest : Str) :
    (nextNum k (lead :: r)).bind nextKey = .ok s rest ↔ ∃ l, l.length = k ∧ number l = s.length ∧ s ≠ [] ∧ r = l ++ (s ++ rest) := by
  constructor
  · intro h
    cases hn : nextNum k (lead :: r) with
    | eof => rw [hn] at h; cases h
    | bad => rw [hn] at h; cases h
    | ok n r1 =>
      rw [hn] at h
      obtain ⟨l, h1, h2, rfl⟩ := (nextNum_exact lead k r n r1).1 hn
      obtain ⟨b, ⟨rfl, h3, h4⟩, rfl⟩ := (nextKey_exact n r1 s rest).1 h
      exact ⟨l, h1, by rw [h2, h3], h4, rfl⟩
  · rintro ⟨l, h1, h2, h3, rfl⟩
    rw [(nextNum_exact lead k _ s.length (s ++ rest)).2 ⟨l, h1, h2, rfl⟩]
    exact (nextKey_exact s.length (s ++ rest) s rest).2 ⟨s, ⟨rfl, rfl, h3⟩, rfl⟩

theorem readKey_exact : Exact readKey IsKey := by
  intro bs s rest
  constructor
  · intro h
    cases bs with
    | nil => cases h
    | cons lead r =>
      have fin : ∀ k, ((lead, k) ∈ ([(0xd9, 1), (0xda, 2), (0xdb, 4)] : List (UInt8 × Nat)) ∨ (lead, k) ∈ ([(0xc4, 1), (0xc5, 2), (0xc6, 4)] : List (UInt8 × Nat))) →
          (nextNum k (lead :: r)).bind nextKey = .ok s rest → ∃ b, IsKey s b ∧ lead :: r = b ++ rest := by
        intro k hk h
        obtain ⟨l, h1, h2, h3, rfl⟩ := (sizedKey_exact lead k r s rest).1 h
        rcases hk with hk | hk
        · exact ⟨(lead :: l) ++ s, ⟨h3, .inl ⟨lead :: l, .inr (h2 ▸ .mk hk h1), rfl⟩⟩, by simp⟩
        · exact ⟨(lead :: l) ++ s, ⟨h3, .inr ⟨lead :: l, h2 ▸ .mk hk h1, rfl⟩⟩, by simp⟩
      simp only [readKey] at h
      split at h
      · rename_i hl
        obtain ⟨b, ⟨rfl, h3, h0⟩, rfl⟩ := (nextKey_exact _ r s rest).1 h
        rw [UInt8.le_iff_toNat_le, UInt8.le_iff_toNat_le] at hl
        have h4 : 160 ≤ lead.toNat ∧ lead.toNat ≤ 191 := hl
        refine ⟨[lead] ++ b, ⟨h0, .inl ⟨[lead], .inl ⟨by omega, ?_⟩, rfl⟩⟩, rfl⟩
        exact congrArg (fun x => [x]) ((fix_byte (base := 0xa0) (by omega)).2 (by omega))
      · split at h
        · rename_i hl; rcases hl with rfl | rfl <;> exact fin 1 (by simp) h
        · split at h
          · rename_i hl; rcases hl with rfl | rfl <;> exact fin 2 (by simp) h
          · split at h
            · rename_i hl; rcases hl with rfl | rfl <;> exact fin 4 (by simp) h
            · cases h
  · rintro ⟨b, ⟨h0, hh⟩, rfl⟩
    have key : ∀ {leads : List (UInt8 × Nat)} {h : Str}, Head leads h s.length → leads = [(0xd9, 1), (0xda, 2), (0xdb, 4)] ∨ leads = [(0xc4, 1), (0xc5, 2), (0xc6, 4)] →
        readKey (h ++ s ++ rest) = .ok s rest := by
      intro leads h hh hc
      generalize hlen : s.length = n at hh
      cases hh with
      | @mk lead k l hk hl =>
        have := (sizedKey_exact lead k (l ++ (s ++ rest)) s rest).2 ⟨l, hl, hlen.symm, h0, rfl⟩
        rcases hc with rfl | rfl <;> simp only [List.mem_cons, Prod.mk.injEq, List.not_mem_nil, or_false] at hk <;>
          rcases hk with ⟨rfl, rfl⟩ | ⟨rfl, rfl⟩ | ⟨rfl, rfl⟩ <;> simpa [readKey] using this
    rcases hh with ⟨h, hh, rfl⟩ | ⟨h, hh, rfl⟩
    · rcases hh with ⟨hn, rfl⟩ | hh
      · have h1 : (UInt8.ofNat (0xa0 + s.length)).toNat = 0xa0 + s.length := u8_toNat (by omega)
        have h2 : 0xa0 ≤ UInt8.ofNat (0xa0 + s.length) ∧ UInt8.ofNat (0xa0 + s.length) ≤ 0xbf := by
          rw [UInt8.le_iff_toNat_le, UInt8.le_iff_toNat_le, h1]
          show 160 ≤ _ ∧ _ ≤ 191
          omega
        simp only [List.cons_append, List.nil_append, readKey]
        rw [if_pos h2, h1, Nat.add_sub_cancel_left]
        exact (nextKey_exact _ _ _ _).2 ⟨s, ⟨rfl, rfl, h0⟩, rfl⟩
      · exact key hh (.inl rfl)
    · exact key hh (.inr rfl)

/-- `n` reads. -/
theorem readMany_exact {α : Type} {rd : Str → Dec α} {P : α → Str → Prop} (h : Exact rd P) (n : Nat) : Exact (readMany rd n) (fun l b => l.length = n ∧ Seq P l b) := by
  induction n with
  | zero =>
    intro bs l rest
    simp only [readMany]
    constructor
    · intro h1
      cases h1
      exact ⟨[], ⟨rfl, .nil⟩, rfl⟩
    · rintro ⟨b, ⟨h1, h2⟩, rfl⟩
      cases h2 with
      | nil => rfl
      | cons _ _ => cases h1
  | succ n ih =>
    intro bs l rest
    have := (h.bind (fun a => (ih.map (fun l => a :: l)))) bs l rest
    refine this.trans ?_
    constructor
    · rintro ⟨b, ⟨a, b1, b2, h1, ⟨l', ⟨h2, h3⟩, rfl⟩, rfl⟩, rfl⟩
      exact ⟨_, ⟨by simp [h2], .cons h1 h3⟩, rfl⟩
    · rintro ⟨b, ⟨h1, h2⟩, rfl⟩
      cases h2 with
      | nil => cases h1
      | cons h3 h4 => exact ⟨_, ⟨_, _, _, h3, ⟨_, ⟨by simpa using h1, h4⟩, rfl⟩, rfl⟩, rfl⟩

theorem readArray_exact {α : Type} {rd : Str → Dec α} {P : α → Str → Prop} (h : Exact rd P) :
    Exact (fun bs => (readArrayHeader bs).bind (fun n r => readMany rd n r)) (IsArray P) := by
  intro bs l rest
  refine (readArrayHeader_exact.bind (fun n => readMany_exact h n) bs l rest).trans ?_
  constructor
  · rintro ⟨b, ⟨n, b1, b2, h1, ⟨rfl, h2⟩, rfl⟩, rfl⟩
    exact ⟨_, ⟨b1, b2, h1, h2, rfl⟩, rfl⟩
  · rintro ⟨b, ⟨h1, s, h2, h3, rfl⟩, rfl⟩
    exact ⟨_, ⟨l.length, h1, s, h2, ⟨rfl, h3⟩, rfl⟩, rfl⟩

end Ripsrc
