import Verif.Lib.Msgp
import Verif.Spec.MsgPack
/-!
# The readers accept exactly the MessagePack format
-/
namespace Ripsrc
open Spec

/-- `rd` succeeds exactly on the bytes described by `P`, and consumes exactly these. -/
def Exact {α : Type} (rd : Str → Dec α) (P : α → Str → Prop) : Prop := ∀ bs a rest, rd bs = .ok a rest ↔ ∃ b, P a b ∧ bs = b ++ rest

theorem number_eq (l : Str) : number l = beVal l := by
  induction l with
  | nil => rfl
  | cons b l ih => rw [number, beVal_cons, ih]

theorem number_lt (l : Str) : number l < 256 ^ l.length := by
  induction l with
  | nil => simp [number]
  | cons b l ih =>
    have := b.toNat_lt
    rw [number, List.length_cons, Nat.pow_succ]
    have : b.toNat * 256 ^ l.length + 256 ^ l.length ≤ 256 * 256 ^ l.length := by
      rw [← Nat.succ_mul]
      exact Nat.mul_le_mul_right _ (by omega)
    omega

theorem Exact.bind {α β : Type} {rd : Str → Dec α} {P : α → Str → Prop} {f : α → Str → Dec β} {Q : α → β → Str → Prop} (h : Exact rd P) (hf : ∀ a, Exact (f a) (Q a)) :
    Exact (fun bs => (rd bs).bind f) (fun c b => ∃ a b1 b2, P a b1 ∧ Q a c b2 ∧ b = b1 ++ b2) := by
  intro bs c rest
  constructor
  · intro h1
    dsimp only at h1
    cases hr : rd bs with
    | eof => rw [hr] at h1; cases h1
    | bad => rw [hr] at h1; cases h1
    | ok a r =>
      rw [hr] at h1
      obtain ⟨b1, hb1, rfl⟩ := (h bs a r).1 hr
      obtain ⟨b2, hb2, rfl⟩ := (hf a r c rest).1 h1
      exact ⟨b1 ++ b2, ⟨a, b1, b2, hb1, hb2, rfl⟩, by simp⟩
  · rintro ⟨b, ⟨a, b1, b2, h1, h2, rfl⟩, rfl⟩
    have e1 := (h (b1 ++ b2 ++ rest) a (b2 ++ rest)).2 ⟨b1, h1, by simp⟩
    have e2 := (hf a (b2 ++ rest) c rest).2 ⟨b2, h2, rfl⟩
    show (rd _).bind f = _
    rw [e1]
    exact e2

theorem Exact.ctx {α : Type} {rd : Str → Dec α} {P : α → Str → Prop} (h : Exact rd P) : Exact (fun bs => (rd bs).ctx) P := by
  intro bs a rest
  rw [← h bs a rest]
  show (rd bs).ctx = _ ↔ _
  cases rd bs <;> simp [Dec.ctx]

theorem Exact.map {α β : Type} {rd : Str → Dec α} {P : α → Str → Prop} (h : Exact rd P) (f : α → β) :
    Exact (fun bs => (rd bs).bind (fun x r => .ok (f x) r)) (fun c b => ∃ a, P a b ∧ c = f a) := by
  intro bs c rest
  constructor
  · intro h1
    dsimp only at h1
    cases hr : rd bs with
    | eof => rw [hr] at h1; cases h1
    | bad => rw [hr] at h1; cases h1
    | ok a r =>
      rw [hr] at h1
      simp only [Dec.bind, Dec.ok.injEq] at h1
      obtain ⟨rfl, rfl⟩ := h1
      obtain ⟨b1, hb1, rfl⟩ := (h bs a r).1 hr
      exact ⟨b1, ⟨a, hb1, rfl⟩, rfl⟩
  · rintro ⟨b, ⟨a, h1, rfl⟩, rfl⟩
    show (rd _).bind _ = _
    rw [(h (b ++ rest) a rest).2 ⟨b, h1, rfl⟩]
    rfl

theorem next_exact (k : Nat) : Exact (next k) (fun s b => b = s ∧ s.length = k) := by
  intro bs a rest
  unfold next
  constructor
  · intro h
    split at h
    · cases h
    · rename_i hk
      simp only [Dec.ok.injEq] at h
      obtain ⟨rfl, rfl⟩ := h
      exact ⟨_, ⟨rfl, by simp; omega⟩, (List.take_append_drop k bs).symm⟩
  · rintro ⟨b, ⟨rfl, rfl⟩, rfl⟩
    rw [if_neg (by simp)]
    simp

theorem nextNum_exact (lead : UInt8) (k : Nat) (r : Str) (n : Nat) (rest : Str) :
    nextNum k (lead :: r) = .ok n rest ↔ ∃ l, l.length = k ∧ number l = n ∧ r = l ++ rest := by
  unfold nextNum next
  simp only [List.length_cons]
  constructor
  · intro h
    split at h
    · cases h
    · rename_i hk
      simp only [Dec.bind, Dec.ok.injEq, List.take_succ_cons, List.drop_succ_cons, List.drop_zero] at h
      obtain ⟨rfl, rfl⟩ := h
      exact ⟨r.take k, by simp; omega, number_eq _, (List.take_append_drop k r).symm⟩
  · rintro ⟨l, rfl, rfl, rfl⟩
    rw [if_neg (by simp)]
    simp [Dec.bind, number_eq]

theorem sized_exact (lead : UInt8) (k : Nat) (r : Str) (s rest : Str) :
    (nextNum k (lead :: r)).bind next = .ok s rest ↔ ∃ l, l.length = k ∧ number l = s.length ∧ r = l ++ (s ++ rest) := by
  constructor
  · intro h
    cases hn : nextNum k (lead :: r) with
    | eof => rw [hn] at h; cases h
    | bad => rw [hn] at h; cases h
    | ok n r1 =>
      rw [hn] at h
      obtain ⟨l, h1, h2, rfl⟩ := (nextNum_exact lead k r n r1).1 hn
      obtain ⟨b, ⟨rfl, h3⟩, rfl⟩ := (next_exact n r1 s rest).1 h
      exact ⟨l, h1, by rw [h2, h3], rfl⟩
  · rintro ⟨l, h1, h2, rfl⟩
    rw [(nextNum_exact lead k _ s.length (s ++ rest)).2 ⟨l, h1, h2, rfl⟩]
    exact (next_exact s.length (s ++ rest) s rest).2 ⟨s, ⟨rfl, rfl⟩, rfl⟩

theorem fix_byte {base n : Nat} {lead : UInt8} (hb : base + n < 256) : lead = UInt8.ofNat (base + n) ↔ lead.toNat = base + n := by
  constructor
  · rintro rfl; exact u8_toNat hb
  · intro h; apply UInt8.toNat_inj.1; rw [h, u8_toNat hb]

theorem readStr_exact : Exact readStr IsStr := by
  intro bs s rest
  constructor
  · intro h
    cases bs with
    | nil => cases h
    | cons lead r =>
      have fin : ∀ k, (lead, k) ∈ ([(0xd9, 1), (0xda, 2), (0xdb, 4)] : List (UInt8 × Nat)) → (nextNum k (lead :: r)).bind next = .ok s rest →
          ∃ b, IsStr s b ∧ lead :: r = b ++ rest := by
        intro k hk h
        obtain ⟨l, h1, h2, rfl⟩ := (sized_exact lead k r s rest).1 h
        exact ⟨(lead :: l) ++ s, ⟨lead :: l, .inr (h2 ▸ .mk hk h1), rfl⟩, by simp⟩
      simp only [readStr] at h
      split at h
      · rename_i hl
        obtain ⟨b, ⟨rfl, h3⟩, rfl⟩ := (next_exact _ r s rest).1 h
        rw [UInt8.le_iff_toNat_le, UInt8.le_iff_toNat_le] at hl
        have h4 : 160 ≤ lead.toNat ∧ lead.toNat ≤ 191 := hl
        refine ⟨[lead] ++ b, ⟨[lead], .inl ⟨by omega, ?_⟩, rfl⟩, rfl⟩
        rw [(fix_byte (by omega)).2 (show lead.toNat = 0xa0 + b.length by omega)]
      · split at h
        · rename_i hl; subst hl; exact fin 1 (by simp) h
        · split at h
          · rename_i hl; subst hl; exact fin 2 (by simp) h
          · split at h
            · rename_i hl; subst hl; exact fin 4 (by simp) h
            · cases h
  · rintro ⟨b, ⟨h, hh, rfl⟩, rfl⟩
    rcases hh with ⟨hn, rfl⟩ | hh
    · have h1 : (UInt8.ofNat (0xa0 + s.length)).toNat = 0xa0 + s.length := u8_toNat (by omega)
      have h2 : 0xa0 ≤ UInt8.ofNat (0xa0 + s.length) ∧ UInt8.ofNat (0xa0 + s.length) ≤ 0xbf := by
        rw [UInt8.le_iff_toNat_le, UInt8.le_iff_toNat_le, h1]
        show 160 ≤ _ ∧ _ ≤ 191
        omega
      simp only [List.cons_append, List.nil_append, readStr]
      rw [if_pos h2, h1, Nat.add_sub_cancel_left]
      exact (next_exact _ _ _ _).2 ⟨s, ⟨rfl, rfl⟩, rfl⟩
    · generalize hlen : s.length = n at hh
      cases hh with
      | @mk lead k l hk hl =>
        have := (sized_exact lead k (l ++ (s ++ rest)) s rest).2 ⟨l, hl, hlen.symm, rfl⟩
        simp only [List.mem_cons, Prod.mk.injEq, List.not_mem_nil, or_false] at hk
        rcases hk with ⟨rfl, rfl⟩ | ⟨rfl, rfl⟩ | ⟨rfl, rfl⟩ <;> simpa [readStr] using this

theorem readBin_exact : Exact readBin IsBytes := by
  intro bs s rest
  constructor
  · intro h
    cases bs with
    | nil => cases h
    | cons lead r =>
      have fin : ∀ k, (lead, k) ∈ ([(0xc4, 1), (0xc5, 2), (0xc6, 4)] : List (UInt8 × Nat)) → (nextNum k (lead :: r)).bind next = .ok s rest →
          ∃ b, IsBytes s b ∧ lead :: r = b ++ rest := by
        intro k hk h
        obtain ⟨l, h1, h2, rfl⟩ := (sized_exact lead k r s rest).1 h
        exact ⟨(lead :: l) ++ s, ⟨lead :: l, h2 ▸ .mk hk h1, rfl⟩, by simp⟩
      unfold readBin next at h
      split at h
      · cases h
      · simp only [Dec.bind, List.take_succ_cons, List.head?_cons, Option.some.injEq] at h
        split at h
        · rename_i hl; subst hl; exact fin 1 (by simp) h
        · split at h
          · rename_i hl; subst hl; exact fin 2 (by simp) h
          · split at h
            · rename_i hl; subst hl; exact fin 4 (by simp) h
            · cases h
  · rintro ⟨b, ⟨h, hh, rfl⟩, rfl⟩
    unfold BinHead at hh
    generalize hlen : s.length = n at hh
    cases hh with
    | @mk lead k l hk hl =>
      have := (sized_exact lead k (l ++ (s ++ rest)) s rest).2 ⟨l, hl, hlen.symm, rfl⟩
      have hl0 : l ≠ [] := by
        rintro rfl
        simp only [List.length_nil] at hl
        subst hl
        simp at hk
      obtain ⟨c, l, rfl⟩ := List.exists_cons_of_ne_nil hl0
      simp only [List.mem_cons, Prod.mk.injEq, List.not_mem_nil, or_false] at hk
      unfold readBin
      rw [show next 2 (lead :: c :: l ++ s ++ rest) = .ok [lead, c] (l ++ s ++ rest) by simp [next]]
      rcases hk with ⟨rfl, rfl⟩ | ⟨rfl, rfl⟩ | ⟨rfl, rfl⟩ <;> simpa [Dec.bind] using this

theorem readBool_exact : Exact readBool IsBool := by
  intro bs x rest
  unfold IsBool
  constructor
  · intro h
    cases bs with
    | nil => cases h
    | cons lead r =>
      simp only [readBool] at h
      split at h
      · rename_i hl; subst hl; cases h; exact ⟨_, rfl, rfl⟩
      · split at h
        · rename_i hl; subst hl; cases h; exact ⟨_, rfl, rfl⟩
        · cases h
  · rintro ⟨b, rfl, rfl⟩
    cases x <;> rfl

theorem readArrayHeader_exact : Exact readArrayHeader (fun n h => ArrayHead h n) := by
  intro bs n rest
  constructor
  · intro h
    cases bs with
    | nil => cases h
    | cons lead r =>
      simp only [readArrayHeader] at h
      split at h
      · rename_i hl
        simp only [Dec.ok.injEq] at h
        obtain ⟨rfl, rfl⟩ := h
        rw [UInt8.le_iff_toNat_le, UInt8.le_iff_toNat_le] at hl
        have h4 : 144 ≤ lead.toNat ∧ lead.toNat ≤ 159 := hl
        refine ⟨[lead], .inl ⟨by omega, ?_⟩, rfl⟩
        exact congrArg (fun x => [x]) ((fix_byte (base := 0x90) (by omega)).2 (by omega))
      · split at h
        · rename_i hl
          subst hl
          obtain ⟨l, h1, rfl, rfl⟩ := (nextNum_exact _ _ _ _ _).1 h
          exact ⟨_, .inr (.mk (k := 2) (by simp) h1), rfl⟩
        · split at h
          · rename_i hl
            subst hl
            obtain ⟨l, h1, rfl, rfl⟩ := (nextNum_exact _ _ _ _ _).1 h
            exact ⟨_, .inr (.mk (k := 4) (by simp) h1), rfl⟩
          · cases h
  · rintro ⟨b, hh | hh, rfl⟩
    · obtain ⟨hn, rfl⟩ := hh
      have h1 : (UInt8.ofNat (0x90 + n)).toNat = 0x90 + n := u8_toNat (by omega)
      have h2 : 0x90 ≤ UInt8.ofNat (0x90 + n) ∧ UInt8.ofNat (0x90 + n) ≤ 0x9f := by
        rw [UInt8.le_iff_toNat_le, UInt8.le_iff_toNat_le, h1]
        show 144 ≤ _ ∧ _ ≤ 159
        omega
      simp only [List.cons_append, List.nil_append, readArrayHeader]
      rw [if_pos h2, h1, Nat.add_sub_cancel_left]
    · cases hh with
      | @mk lead k l hk hl =>
        have := (nextNum_exact lead k (l ++ rest) _ rest).2 ⟨l, hl, rfl, rfl⟩
        simp only [List.mem_cons, Prod.mk.injEq, List.not_mem_nil, or_false] at hk
        rcases hk with ⟨rfl, rfl⟩ | ⟨rfl, rfl⟩ <;> simpa [readArrayHeader] using this

theorem readMapHeader_exact : Exact readMapHeader (fun n h => MapHead h n) := by
  intro bs n rest
  constructor
  · intro h
    cases bs with
    | nil => cases h
    | cons lead r =>
      simp only [readMapHeader] at h
      split at h
      · rename_i hl
        simp only [Dec.ok.injEq] at h
        obtain ⟨rfl, rfl⟩ := h
        rw [UInt8.le_iff_toNat_le, UInt8.le_iff_toNat_le] at hl
        have h4 : 128 ≤ lead.toNat ∧ lead.toNat ≤ 143 := hl
        refine ⟨[lead], .inl ⟨by omega, ?_⟩, rfl⟩
        exact congrArg (fun x => [x]) ((fix_byte (base := 0x80) (by omega)).2 (by omega))
      · split at h
        · rename_i hl
          subst hl
          obtain ⟨l, h1, rfl, rfl⟩ := (nextNum_exact _ _ _ _ _).1 h
          exact ⟨_, .inr (.mk (k := 2) (by simp) h1), rfl⟩
        · split at h
          · rename_i hl
            subst hl
            obtain ⟨l, h1, rfl, rfl⟩ := (nextNum_exact _ _ _ _ _).1 h
            exact ⟨_, .inr (.mk (k := 4) (by simp) h1), rfl⟩
          · cases h
  · rintro ⟨b, hh | hh, rfl⟩
    · obtain ⟨hn, rfl⟩ := hh
      exact mapHeader_full hn rest
    · cases hh with
      | @mk lead k l hk hl =>
        have := (nextNum_exact lead k (l ++ rest) _ rest).2 ⟨l, hl, rfl, rfl⟩
        simp only [List.mem_cons, Prod.mk.injEq, List.not_mem_nil, or_false] at hk
        rcases hk with ⟨rfl, rfl⟩ | ⟨rfl, rfl⟩ <;> simpa [readMapHeader] using this

end Ripsrc
