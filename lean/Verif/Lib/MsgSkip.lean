import Verif.Lib.MsgPack2
/-!
# Skipping skips exactly one object
-/
namespace Ripsrc
open Spec

/-- The bytes of an object that are its own, and the number of objects inside. -/
inductive Own : Str → Nat → Prop where
  | one {b : UInt8} : b < 0x80 ∨ 0xe0 ≤ b ∨ b ∈ [0xc0, 0xc2, 0xc3] → Own [b] 0
  | fixed {lead : UInt8} {n : Nat} {p : Str} : (lead, n) ∈ fixedSizes → p.length = n → Own (lead :: p) 0
  | str {s b : Str} : IsStr s b → Own b 0
  | bin {s b : Str} : IsBytes s b → Own b 0
  | ext {h p : Str} {t : UInt8} : Head [(0xc7, 1), (0xc8, 2), (0xc9, 4)] h p.length → Own (h ++ t :: p) 0
  | array {h : Str} {n : Nat} : ArrayHead h n → Own h n
  | map {h : Str} {n : Nat} : MapHead h n → Own h (2 * n)

/-- The object at the start of `bs` is `h`. -/
def OwnAt (bs : Str) (size inner : Nat) : Prop := ∃ h rest, bs = h ++ rest ∧ h.length = size ∧ Own h inner

theorem own_const {lead : UInt8} {r : Str} {n size inner : Nat} {x : Str} (h : (Dec.ok (n, 0) (lead :: r) : Dec (Nat × Nat)) = .ok (size, inner) x)
    (hs : size ≤ (lead :: r).length) (hn : (lead, n - 1) ∈ fixedSizes) (h1 : 1 ≤ n) : OwnAt (lead :: r) size inner := by
  simp only [Dec.ok.injEq, Prod.mk.injEq] at h
  obtain ⟨⟨rfl, rfl⟩, rfl⟩ := h
  simp only [List.length_cons] at hs
  refine ⟨lead :: r.take (n - 1), r.drop (n - 1), by simp, by simp; omega, .fixed hn (by simp; omega)⟩

theorem own_one {lead : UInt8} {r : Str} {size inner : Nat} {x : Str} (h : (Dec.ok (1, 0) (lead :: r) : Dec (Nat × Nat)) = .ok (size, inner) x)
    (hl : lead < 0x80 ∨ 0xe0 ≤ lead ∨ lead ∈ ([0xc0, 0xc2, 0xc3] : List UInt8)) : OwnAt (lead :: r) size inner := by
  simp only [Dec.ok.injEq, Prod.mk.injEq] at h
  obtain ⟨⟨rfl, rfl⟩, rfl⟩ := h
  exact ⟨[lead], r, rfl, rfl, .one hl⟩

/-- An object with a length. -/
theorem own_sized {lead : UInt8} {r : Str} {k extra size inner : Nat} {x : Str}
    (h : (nextNum k (lead :: r)).bind (fun n r => Dec.ok (1 + k + extra + n, 0) r) = .ok (size, inner) x) (hs : size ≤ (lead :: r).length) :
    inner = 0 ∧ ∃ l p rest, r = l ++ (p ++ rest) ∧ l.length = k ∧ p.length = extra + number l ∧ size = (lead :: l ++ p).length := by
  cases hn : nextNum k (lead :: r) with
  | eof => rw [hn] at h; cases h
  | bad => rw [hn] at h; cases h
  | ok n r1 =>
    rw [hn] at h
    simp only [Dec.bind, Dec.ok.injEq, Prod.mk.injEq] at h
    obtain ⟨⟨rfl, rfl⟩, rfl⟩ := h
    obtain ⟨l, h1, rfl, rfl⟩ := (nextNum_exact _ _ _ _ _).1 hn
    simp only [List.length_cons, List.length_append] at hs
    refine ⟨rfl, l, r1.take (extra + number l), r1.drop (extra + number l), by simp, h1, by simp; omega, by simp; omega⟩

theorem own_str {lead : UInt8} {r : Str} {k size inner : Nat} {x : Str} (h : (nextNum k (lead :: r)).bind (fun n r => Dec.ok (1 + k + 0 + n, 0) r) = .ok (size, inner) x)
    (hs : size ≤ (lead :: r).length) (hk : (lead, k) ∈ ([(0xd9, 1), (0xda, 2), (0xdb, 4)] : List (UInt8 × Nat))) : OwnAt (lead :: r) size inner := by
  obtain ⟨rfl, l, p, rest, rfl, h1, h2, rfl⟩ := own_sized h hs
  refine ⟨lead :: l ++ p, rest, by simp, rfl, .str (s := p) ⟨lead :: l, .inr ?_, rfl⟩⟩
  rw [h2, Nat.zero_add]
  exact .mk hk h1

theorem own_bin {lead : UInt8} {r : Str} {k size inner : Nat} {x : Str} (h : (nextNum k (lead :: r)).bind (fun n r => Dec.ok (1 + k + 0 + n, 0) r) = .ok (size, inner) x)
    (hs : size ≤ (lead :: r).length) (hk : (lead, k) ∈ ([(0xc4, 1), (0xc5, 2), (0xc6, 4)] : List (UInt8 × Nat))) : OwnAt (lead :: r) size inner := by
  obtain ⟨rfl, l, p, rest, rfl, h1, h2, rfl⟩ := own_sized h hs
  refine ⟨lead :: l ++ p, rest, by simp, rfl, .bin (s := p) ⟨lead :: l, ?_, rfl⟩⟩
  rw [h2, Nat.zero_add]
  exact .mk hk h1

theorem own_ext {lead : UInt8} {r : Str} {k size inner : Nat} {x : Str} (h : (nextNum k (lead :: r)).bind (fun n r => Dec.ok (1 + k + 1 + n, 0) r) = .ok (size, inner) x)
    (hs : size ≤ (lead :: r).length) (hk : (lead, k) ∈ ([(0xc7, 1), (0xc8, 2), (0xc9, 4)] : List (UInt8 × Nat))) : OwnAt (lead :: r) size inner := by
  obtain ⟨rfl, l, p, rest, rfl, h1, h2, rfl⟩ := own_sized h hs
  cases p with
  | nil => simp at h2; omega
  | cons t p =>
    refine ⟨(lead :: l) ++ t :: p, rest, by simp, rfl, .ext ?_⟩
    rw [show p.length = number l by simp at h2; omega]
    exact .mk hk h1

theorem own_many {lead : UInt8} {r : Str} {k f size inner : Nat} {x : Str} (h : (nextNum k (lead :: r)).bind (fun n r => Dec.ok (1 + k, f * n) r) = .ok (size, inner) x)
    (hk : (f = 1 ∧ (lead, k) ∈ ([(0xdc, 2), (0xdd, 4)] : List (UInt8 × Nat))) ∨ (f = 2 ∧ (lead, k) ∈ ([(0xde, 2), (0xdf, 4)] : List (UInt8 × Nat)))) :
    OwnAt (lead :: r) size inner := by
  cases hn : nextNum k (lead :: r) with
  | eof => rw [hn] at h; cases h
  | bad => rw [hn] at h; cases h
  | ok n r1 =>
    rw [hn] at h
    simp only [Dec.bind, Dec.ok.injEq, Prod.mk.injEq] at h
    obtain ⟨⟨rfl, rfl⟩, rfl⟩ := h
    obtain ⟨l, h1, rfl, rfl⟩ := (nextNum_exact _ _ _ _ _).1 hn
    rcases hk with ⟨rfl, hk⟩ | ⟨rfl, hk⟩
    · exact ⟨lead :: l, r1, rfl, by simp; omega, by rw [Nat.one_mul]; exact .array (.inr (.mk hk h1))⟩
    · exact ⟨lead :: l, r1, rfl, by simp; omega, .map (.inr (.mk hk h1))⟩

theorem ite_elim {α : Type} {c : Prop} [Decidable c] {a b x : α} (h : (if c then a else b) = x) : (c ∧ a = x) ∨ (¬ c ∧ b = x) := by
  by_cases hc : c
  · rw [if_pos hc] at h; exact .inl ⟨hc, h⟩
  · rw [if_neg hc] at h; exact .inr ⟨hc, h⟩

theorem ge_of_not_lt {a : UInt8} {n : Nat} (hn : n < 256) (h : ¬ a < UInt8.ofNat n) : n ≤ a.toNat :=
  Nat.not_lt.1 fun hh => h (UInt8.lt_iff_toNat_lt.2 (by rw [u8_toNat hn]; exact hh))

theorem objSize_own {bs x : Str} {size inner : Nat} (h : objSize bs = .ok (size, inner) x) (hs : size ≤ bs.length) : OwnAt bs size inner := by
  cases bs with
  | nil => cases h
  | cons lead r =>
    unfold objSize at h
    dsimp only at h
    rcases ite_elim h with ⟨c1, h⟩ | ⟨c1, h⟩
    · exact own_one h (.inl c1)
    have d1 : 128 ≤ lead.toNat := ge_of_not_lt (by omega) c1
    rcases ite_elim h with ⟨c2, h⟩ | ⟨c2, h⟩
    · have d2 : lead.toNat < 144 := UInt8.lt_iff_toNat_lt.1 c2
      simp only [Dec.ok.injEq, Prod.mk.injEq] at h
      obtain ⟨⟨rfl, rfl⟩, rfl⟩ := h
      exact ⟨[lead], r, rfl, rfl, .map (.inl ⟨by omega, congrArg (fun x => [x]) ((fix_byte (base := 0x80) (by omega)).2 (by omega))⟩)⟩
    have d2 : 144 ≤ lead.toNat := ge_of_not_lt (by omega) c2
    rcases ite_elim h with ⟨c3, h⟩ | ⟨c3, h⟩
    · have d3 : lead.toNat < 160 := UInt8.lt_iff_toNat_lt.1 c3
      simp only [Dec.ok.injEq, Prod.mk.injEq] at h
      obtain ⟨⟨rfl, rfl⟩, rfl⟩ := h
      exact ⟨[lead], r, rfl, rfl, .array (.inl ⟨by omega, congrArg (fun x => [x]) ((fix_byte (base := 0x90) (by omega)).2 (by omega))⟩)⟩
    have d3 : 160 ≤ lead.toNat := ge_of_not_lt (by omega) c3
    rcases ite_elim h with ⟨c4, h⟩ | ⟨c4, h⟩
    · have d4 : lead.toNat < 192 := UInt8.lt_iff_toNat_lt.1 c4
      simp only [Dec.ok.injEq, Prod.mk.injEq] at h
      obtain ⟨⟨rfl, rfl⟩, rfl⟩ := h
      simp only [List.length_cons] at hs
      have hlen : (r.take (lead.toNat - 160)).length = lead.toNat - 160 := by simp; omega
      refine ⟨[lead] ++ r.take (lead.toNat - 160), r.drop (lead.toNat - 160), by simp, by simp; omega, .str (s := r.take (lead.toNat - 160)) ⟨[lead], .inl ⟨by omega, ?_⟩, rfl⟩⟩
      rw [hlen]
      exact congrArg (fun x => [x]) ((fix_byte (base := 0xa0) (by omega)).2 (by omega))
    have d4 : 192 ≤ lead.toNat := ge_of_not_lt (by omega) c4
    rcases ite_elim h with ⟨e0, h⟩ | ⟨e0, h⟩
    · subst e0; exact own_one h (by decide)
    rcases ite_elim h with ⟨e1, h⟩ | ⟨e1, h⟩
    · cases h
    have f0 : lead.toNat ≠ 192 := fun hh => e0 (UInt8.toNat_inj.1 hh)
    have f1 : lead.toNat ≠ 193 := fun hh => e1 (UInt8.toNat_inj.1 hh)
    rcases ite_elim h with ⟨e2, h⟩ | ⟨e2, h⟩
    · have d5 : lead.toNat < 196 := UInt8.lt_iff_toNat_lt.1 e2
      have : lead = 0xc2 ∨ lead = 0xc3 := by
        rw [← UInt8.toNat_inj, ← UInt8.toNat_inj]
        show lead.toNat = 194 ∨ lead.toNat = 195
        omega
      refine own_one h (.inr (.inr ?_))
      rcases this with rfl | rfl <;> decide
    have d5 : 196 ≤ lead.toNat := ge_of_not_lt (by omega) e2
    clear c1 c2 c3 c4 d1 d2 d3 d4 e0 e1 e2 f0 f1
    rcases ite_elim h with ⟨e, h⟩ | ⟨e, h⟩
    · subst e; exact own_bin h hs (by decide)
    have f196 : lead.toNat ≠ 196 := fun hh => e (UInt8.toNat_inj.1 hh)
    clear e
    rcases ite_elim h with ⟨e, h⟩ | ⟨e, h⟩
    · subst e; exact own_bin h hs (by decide)
    have f197 : lead.toNat ≠ 197 := fun hh => e (UInt8.toNat_inj.1 hh)
    clear e
    rcases ite_elim h with ⟨e, h⟩ | ⟨e, h⟩
    · subst e; exact own_bin h hs (by decide)
    have f198 : lead.toNat ≠ 198 := fun hh => e (UInt8.toNat_inj.1 hh)
    clear e
    rcases ite_elim h with ⟨e, h⟩ | ⟨e, h⟩
    · subst e; exact own_ext h hs (by decide)
    have f199 : lead.toNat ≠ 199 := fun hh => e (UInt8.toNat_inj.1 hh)
    clear e
    rcases ite_elim h with ⟨e, h⟩ | ⟨e, h⟩
    · subst e; exact own_ext h hs (by decide)
    have f200 : lead.toNat ≠ 200 := fun hh => e (UInt8.toNat_inj.1 hh)
    clear e
    rcases ite_elim h with ⟨e, h⟩ | ⟨e, h⟩
    · subst e; exact own_ext h hs (by decide)
    have f201 : lead.toNat ≠ 201 := fun hh => e (UInt8.toNat_inj.1 hh)
    clear e
    rcases ite_elim h with ⟨e, h⟩ | ⟨e, h⟩
    · subst e; exact own_const h hs (by decide) (by decide)
    have f202 : lead.toNat ≠ 202 := fun hh => e (UInt8.toNat_inj.1 hh)
    clear e
    rcases ite_elim h with ⟨e, h⟩ | ⟨e, h⟩
    · subst e; exact own_const h hs (by decide) (by decide)
    have f203 : lead.toNat ≠ 203 := fun hh => e (UInt8.toNat_inj.1 hh)
    clear e
    rcases ite_elim h with ⟨e, h⟩ | ⟨e, h⟩
    · rcases e with rfl | rfl <;> exact own_const h hs (by decide) (by decide)
    have f204 : lead.toNat ≠ 204 := fun hh => e (.inl (UInt8.toNat_inj.1 hh))
    have f208 : lead.toNat ≠ 208 := fun hh => e (.inr (UInt8.toNat_inj.1 hh))
    clear e
    rcases ite_elim h with ⟨e, h⟩ | ⟨e, h⟩
    · rcases e with rfl | rfl <;> exact own_const h hs (by decide) (by decide)
    have f205 : lead.toNat ≠ 205 := fun hh => e (.inl (UInt8.toNat_inj.1 hh))
    have f209 : lead.toNat ≠ 209 := fun hh => e (.inr (UInt8.toNat_inj.1 hh))
    clear e
    rcases ite_elim h with ⟨e, h⟩ | ⟨e, h⟩
    · rcases e with rfl | rfl <;> exact own_const h hs (by decide) (by decide)
    have f206 : lead.toNat ≠ 206 := fun hh => e (.inl (UInt8.toNat_inj.1 hh))
    have f210 : lead.toNat ≠ 210 := fun hh => e (.inr (UInt8.toNat_inj.1 hh))
    clear e
    rcases ite_elim h with ⟨e, h⟩ | ⟨e, h⟩
    · rcases e with rfl | rfl <;> exact own_const h hs (by decide) (by decide)
    have f207 : lead.toNat ≠ 207 := fun hh => e (.inl (UInt8.toNat_inj.1 hh))
    have f211 : lead.toNat ≠ 211 := fun hh => e (.inr (UInt8.toNat_inj.1 hh))
    clear e
    rcases ite_elim h with ⟨e, h⟩ | ⟨e, h⟩
    · subst e; exact own_const h hs (by decide) (by decide)
    have f212 : lead.toNat ≠ 212 := fun hh => e (UInt8.toNat_inj.1 hh)
    clear e
    rcases ite_elim h with ⟨e, h⟩ | ⟨e, h⟩
    · subst e; exact own_const h hs (by decide) (by decide)
    have f213 : lead.toNat ≠ 213 := fun hh => e (UInt8.toNat_inj.1 hh)
    clear e
    rcases ite_elim h with ⟨e, h⟩ | ⟨e, h⟩
    · subst e; exact own_const h hs (by decide) (by decide)
    have f214 : lead.toNat ≠ 214 := fun hh => e (UInt8.toNat_inj.1 hh)
    clear e
    rcases ite_elim h with ⟨e, h⟩ | ⟨e, h⟩
    · subst e; exact own_const h hs (by decide) (by decide)
    have f215 : lead.toNat ≠ 215 := fun hh => e (UInt8.toNat_inj.1 hh)
    clear e
    rcases ite_elim h with ⟨e, h⟩ | ⟨e, h⟩
    · subst e; exact own_const h hs (by decide) (by decide)
    have f216 : lead.toNat ≠ 216 := fun hh => e (UInt8.toNat_inj.1 hh)
    clear e
    rcases ite_elim h with ⟨e, h⟩ | ⟨e, h⟩
    · subst e; exact own_str h hs (by decide)
    have f217 : lead.toNat ≠ 217 := fun hh => e (UInt8.toNat_inj.1 hh)
    clear e
    rcases ite_elim h with ⟨e, h⟩ | ⟨e, h⟩
    · subst e; exact own_str h hs (by decide)
    have f218 : lead.toNat ≠ 218 := fun hh => e (UInt8.toNat_inj.1 hh)
    clear e
    rcases ite_elim h with ⟨e, h⟩ | ⟨e, h⟩
    · subst e; exact own_str h hs (by decide)
    have f219 : lead.toNat ≠ 219 := fun hh => e (UInt8.toNat_inj.1 hh)
    clear e
    rcases ite_elim h with ⟨e, h⟩ | ⟨e, h⟩
    · subst e; exact own_many h (by decide)
    have f220 : lead.toNat ≠ 220 := fun hh => e (UInt8.toNat_inj.1 hh)
    clear e
    rcases ite_elim h with ⟨e, h⟩ | ⟨e, h⟩
    · subst e; exact own_many h (by decide)
    have f221 : lead.toNat ≠ 221 := fun hh => e (UInt8.toNat_inj.1 hh)
    clear e
    rcases ite_elim h with ⟨e, h⟩ | ⟨e, h⟩
    · subst e; exact own_many h (by decide)
    have f222 : lead.toNat ≠ 222 := fun hh => e (UInt8.toNat_inj.1 hh)
    clear e
    rcases ite_elim h with ⟨e, h⟩ | ⟨e, h⟩
    · subst e; exact own_many h (by decide)
    have f223 : lead.toNat ≠ 223 := fun hh => e (UInt8.toNat_inj.1 hh)
    clear e
    refine own_one h (.inr (.inl ?_))
    rw [UInt8.le_iff_toNat_le]
    show 224 ≤ lead.toNat
    omega

end Ripsrc
