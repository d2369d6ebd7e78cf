import Verif.Lib.MsgCut
/-!
# C66: which documents the records are read from

Every decoder accepts exactly the MessagePack maps: entries in any order, every legal representation of a value, unknown entries of any shape
skipped, the last of several entries with the same name wins.
-/
namespace Ripsrc
open Spec

theorem unknownField_exact {σ : Type} (z : σ) : Exact (unknownField z) (fun z' b => IsMsg b ∧ z' = z) := by
  intro bs z' rest
  unfold unknownField
  refine (skip_exact.map (fun _ => z) bs z' rest).trans ?_
  constructor
  · rintro ⟨b, ⟨_, h, rfl⟩, rfl⟩; exact ⟨b, ⟨h, rfl⟩, rfl⟩
  · rintro ⟨b, ⟨h, rfl⟩, rfl⟩; exact ⟨b, ⟨(), h, rfl⟩, rfl⟩

/-- One case of a switch. -/
theorem Exact.case {α : Type} (c : Prop) [Decidable c] {f g : Str → Dec α} {P Q : α → Str → Prop} (hf : Exact f P) (hg : Exact g Q) :
    Exact (fun bs => if c then f bs else g bs) (fun a b => (c ∧ P a b) ∨ (¬ c ∧ Q a b)) := by
  intro bs a rest
  by_cases hc : c
  · simp only [hc, if_true, true_and, not_true, false_and, or_false]; exact hf bs a rest
  · simp only [hc, if_false, false_and, not_false_eq_true, true_and, false_or]; exact hg bs a rest

/-- A key and a value. -/
theorem entry_exact {σ : Type} {field : σ → Str → Str → Dec σ} {P : Str → σ → Str → Prop} {E : σ → Str → σ → Prop} {z : σ} (h : ∀ k, Exact (fun bs => field z k bs) (P k))
    (hE : ∀ z' b, E z b z' ↔ ∃ k kb v, IsKey k kb ∧ P k z' v ∧ b = kb ++ v) :
    Exact (fun bs => (readKey bs).bind (fun k r => field z k r)) (fun z' b => E z b z') := by
  intro bs z' rest
  refine (readKey_exact.bind h bs z' rest).trans ?_
  constructor
  · rintro ⟨b, hb, rfl⟩; exact ⟨b, (hE z' b).2 hb, rfl⟩
  · rintro ⟨b, hb, rfl⟩; exact ⟨b, (hE z' b).1 hb, rfl⟩

theorem row_entry (z : DRow) : Exact (fun bs => (readKey bs).bind (fun k r => DRow.field z k r)) (fun z' b => RowField z b z') := by
  refine entry_exact (field := DRow.field) (z := z) (fun k => Exact.case (k = b!"c") (readStr_exact.map (fun x => { z with commit := x })).ctx (Exact.case (k = b!"p") (readStr_exact.map (fun x => { z with path := x })).ctx (Exact.case (k = b!"bp") (readUint_exact.map (fun x => { z with blamePointer := x })).ctx (unknownField_exact z)))) ?_
  intro z' b
  constructor
  · intro h
    cases h with
    | commit hk hv => exact ⟨_, _, _, hk, .inl ⟨rfl, _, hv, rfl⟩, rfl⟩
    | path hk hv => exact ⟨_, _, _, hk, .inr ⟨by decide, .inl ⟨rfl, _, hv, rfl⟩⟩, rfl⟩
    | blame hk hv => exact ⟨_, _, _, hk, .inr ⟨by decide, .inr ⟨by decide, .inl ⟨rfl, _, hv, rfl⟩⟩⟩, rfl⟩
    | other hf =>
      cases hf with
      | mk hk hn hv =>
        simp only [List.mem_cons, List.not_mem_nil, or_false, not_or] at hn
        exact ⟨_, _, _, hk, .inr ⟨hn.1, .inr ⟨hn.2.1, .inr ⟨hn.2.2, hv, rfl⟩⟩⟩, rfl⟩
  · rintro ⟨k, kb, v, hk, h, rfl⟩
    rcases h with ⟨rfl, s, hs, rfl⟩ | ⟨n1, ⟨rfl, s, hs, rfl⟩ | ⟨n2, ⟨rfl, s, hs, rfl⟩ | ⟨n3, hs, rfl⟩⟩⟩
    · exact .commit hk hs
    · exact .path hk hs
    · exact .blame hk hs
    · exact .other (.mk hk (by simp only [List.mem_cons, List.not_mem_nil, or_false, not_or]; exact ⟨n1, n2, n3⟩) hs)

theorem row_exact (z : DRow) : Exact (decodeMsg z DRow.field) (fun z' b => IsMap RowField z b z') := decodeMsg_exact row_entry z

theorem blame_entry (z : DBlame) : Exact (fun bs => (readKey bs).bind (fun k r => DBlame.field z k r)) (fun z' b => BlameField z b z') := by
  have arr : Exact (fun bs => (readArrayHeader bs).bind (fun n r => (readMany readUint n r).bind (fun x r => Dec.ok { z with linePointers := x } r)))
      (fun z' b => ∃ l, IsArray IsUint l b ∧ z' = { z with linePointers := l }) := by
    intro bs z' rest
    refine Iff.trans ?_ ((readArray_exact readUint_exact).map (fun x => { z with linePointers := x }) bs z' rest)
    dsimp only
    cases readArrayHeader bs <;> exact Iff.rfl
  refine entry_exact (field := DBlame.field) (z := z) (fun k => Exact.case (k = b!"p") (readUint_exact.map (fun x => { z with pointer := x })).ctx (Exact.case (k = b!"c") (readStr_exact.map (fun x => { z with commit := x })).ctx (Exact.case (k = b!"lp") arr.ctx (Exact.case (k = b!"ib") (readBool_exact.map (fun x => { z with isBinary := x })).ctx (unknownField_exact z))))) ?_
  intro z' b
  constructor
  · intro h
    cases h with
    | pointer hk hv => exact ⟨_, _, _, hk, .inl ⟨rfl, _, hv, rfl⟩, rfl⟩
    | commit hk hv => exact ⟨_, _, _, hk, .inr ⟨by decide, .inl ⟨rfl, _, hv, rfl⟩⟩, rfl⟩
    | lines hk hv => exact ⟨_, _, _, hk, .inr ⟨by decide, .inr ⟨by decide, .inl ⟨rfl, _, hv, rfl⟩⟩⟩, rfl⟩
    | binary hk hv => exact ⟨_, _, _, hk, .inr ⟨by decide, .inr ⟨by decide, .inr ⟨by decide, .inl ⟨rfl, _, hv, rfl⟩⟩⟩⟩, rfl⟩
    | other hf =>
      cases hf with
      | mk hk hn hv =>
        simp only [List.mem_cons, List.not_mem_nil, or_false, not_or] at hn
        exact ⟨_, _, _, hk, .inr ⟨hn.1, .inr ⟨hn.2.1, .inr ⟨hn.2.2.1, .inr ⟨hn.2.2.2, hv, rfl⟩⟩⟩⟩, rfl⟩
  · rintro ⟨k, kb, v, hk, h, rfl⟩
    rcases h with ⟨rfl, s, hs, rfl⟩ | ⟨n1, ⟨rfl, s, hs, rfl⟩ | ⟨n2, ⟨rfl, s, hs, rfl⟩ | ⟨n3, ⟨rfl, s, hs, rfl⟩ | ⟨n4, hs, rfl⟩⟩⟩⟩
    · exact .pointer hk hs
    · exact .commit hk hs
    · exact .lines hk hs
    · exact .binary hk hs
    · exact .other (.mk hk (by simp only [List.mem_cons, List.not_mem_nil, or_false, not_or]; exact ⟨n1, n2, n3, n4⟩) hs)

theorem blame_exact (z : DBlame) : Exact (decodeMsg z DBlame.field) (fun z' b => IsMap BlameField z b z') := decodeMsg_exact blame_entry z

theorem line_entry (z : DLine) : Exact (fun bs => (readKey bs).bind (fun k r => DLine.field z k r)) (fun z' b => LineField z b z') := by
  refine entry_exact (field := DLine.field) (z := z) (fun k => Exact.case (k = b!"p") (readUint_exact.map (fun x => { z with pointer := x })).ctx (Exact.case (k = b!"c") (readStr_exact.map (fun x => { z with commit := x })).ctx (Exact.case (k = b!"ldp") (readUint_exact.map (fun x => { z with lineDataPointer := x })).ctx (unknownField_exact z)))) ?_
  intro z' b
  constructor
  · intro h
    cases h with
    | pointer hk hv => exact ⟨_, _, _, hk, .inl ⟨rfl, _, hv, rfl⟩, rfl⟩
    | commit hk hv => exact ⟨_, _, _, hk, .inr ⟨by decide, .inl ⟨rfl, _, hv, rfl⟩⟩, rfl⟩
    | data hk hv => exact ⟨_, _, _, hk, .inr ⟨by decide, .inr ⟨by decide, .inl ⟨rfl, _, hv, rfl⟩⟩⟩, rfl⟩
    | other hf =>
      cases hf with
      | mk hk hn hv =>
        simp only [List.mem_cons, List.not_mem_nil, or_false, not_or] at hn
        exact ⟨_, _, _, hk, .inr ⟨hn.1, .inr ⟨hn.2.1, .inr ⟨hn.2.2, hv, rfl⟩⟩⟩, rfl⟩
  · rintro ⟨k, kb, v, hk, h, rfl⟩
    rcases h with ⟨rfl, s, hs, rfl⟩ | ⟨n1, ⟨rfl, s, hs, rfl⟩ | ⟨n2, ⟨rfl, s, hs, rfl⟩ | ⟨n3, hs, rfl⟩⟩⟩
    · exact .pointer hk hs
    · exact .commit hk hs
    · exact .data hk hs
    · exact .other (.mk hk (by simp only [List.mem_cons, List.not_mem_nil, or_false, not_or]; exact ⟨n1, n2, n3⟩) hs)

theorem line_exact (z : DLine) : Exact (decodeMsg z DLine.field) (fun z' b => IsMap LineField z b z') := decodeMsg_exact line_entry z

theorem lineData_entry (z : DLineData) : Exact (fun bs => (readKey bs).bind (fun k r => DLineData.field z k r)) (fun z' b => LineDataField z b z') := by
  refine entry_exact (field := DLineData.field) (z := z) (fun k => Exact.case (k = b!"p") (readUint_exact.map (fun x => { z with pointer := x })).ctx (Exact.case (k = b!"d") (readBin_exact.map (fun x => { z with data := x })).ctx (unknownField_exact z))) ?_
  intro z' b
  constructor
  · intro h
    cases h with
    | pointer hk hv => exact ⟨_, _, _, hk, .inl ⟨rfl, _, hv, rfl⟩, rfl⟩
    | data hk hv => exact ⟨_, _, _, hk, .inr ⟨by decide, .inl ⟨rfl, _, hv, rfl⟩⟩, rfl⟩
    | other hf =>
      cases hf with
      | mk hk hn hv =>
        simp only [List.mem_cons, List.not_mem_nil, or_false, not_or] at hn
        exact ⟨_, _, _, hk, .inr ⟨hn.1, .inr ⟨hn.2, hv, rfl⟩⟩, rfl⟩
  · rintro ⟨k, kb, v, hk, h, rfl⟩
    rcases h with ⟨rfl, s, hs, rfl⟩ | ⟨n1, ⟨rfl, s, hs, rfl⟩ | ⟨n2, hs, rfl⟩⟩
    · exact .pointer hk hs
    · exact .data hk hs
    · exact .other (.mk hk (by simp only [List.mem_cons, List.not_mem_nil, or_false, not_or]; exact ⟨n1, n2⟩) hs)

theorem lineData_exact (z : DLineData) : Exact (decodeMsg z DLineData.field) (fun z' b => IsMap LineDataField z b z') := decodeMsg_exact lineData_entry z

/-- C66 for rows. -/
theorem C66_rows (bs rest : Str) (z : DRow) : DRow.decode bs = .ok z rest ↔ ∃ b, IsMap RowField {} b z ∧ bs = b ++ rest := row_exact {} bs z rest

/-- C66 for blames. -/
theorem C66_blames (bs rest : Str) (z : DBlame) : DBlame.decode bs = .ok z rest ↔ ∃ b, IsMap BlameField {} b z ∧ bs = b ++ rest := blame_exact {} bs z rest

/-- C66 for lines. -/
theorem C66_lines (bs rest : Str) (z : DLine) : DLine.decode bs = .ok z rest ↔ ∃ b, IsMap LineField {} b z ∧ bs = b ++ rest := line_exact {} bs z rest

/-- C66 for line data. -/
theorem C66_line_data (bs rest : Str) (z : DLineData) : DLineData.decode bs = .ok z rest ↔ ∃ b, IsMap LineDataField {} b z ∧ bs = b ++ rest := lineData_exact {} bs z rest

/-- Skipping an unknown entry reads exactly one object. -/
theorem C66_unknown_entries (bs rest : Str) : skip bs = .ok () rest ↔ ∃ b, IsMsg b ∧ bs = b ++ rest := skip_exact bs () rest

/-- The entries that are there are read, and then the next one. -/
theorem decodeFields_entries {σ : Type} {field : σ → Str → Str → Dec σ} {E : σ → Str → σ → Prop} (hE : ∀ z, Exact (fun bs => (readKey bs).bind (fun k r => field z k r)) (fun z' b => E z b z'))
    {k : Nat} {z z' : σ} {s : Str} (h : MapEntries E k z s z') (m : Nat) (rest : Str) : decodeFields field (k + m) z (s ++ rest) = decodeFields field m z' rest := by
  induction h with
  | nil => rw [Nat.zero_add]; rfl
  | @cons n z z1 z2 e s he _ ih =>
    rw [show n + 1 + m = (n + m) + 1 by omega, decodeFields, List.append_assoc]
    have h1 := (hE z (e ++ (s ++ rest)) z1 (s ++ rest)).2 ⟨e, he, rfl⟩
    dsimp only at h1
    cases hk : readKey (e ++ (s ++ rest)) with
    | eof => rw [hk] at h1; cases h1
    | bad => rw [hk] at h1; cases h1
    | ok key r =>
      rw [hk] at h1
      simp only [Dec.bind] at h1 ⊢
      rw [h1]
      exact ih

theorem decode_cut_unknown {σ : Type} {field : σ → Str → Str → Dec σ} {E : σ → Str → σ → Prop} (hE : ∀ z, Exact (fun bs => (readKey bs).bind (fun k r => field z k r)) (fun z' b => E z b z'))
    {h s kb v bs r key : Str} {n k : Nat} {z z' : σ} (hh : MapHead h n) (hs : MapEntries E k z s z') (hk : k < n) (hkey : IsKey key kb)
    (hfield : ∀ x, field z' key x = unknownField z' x) (hv : IsMsg v) (hcut : v = bs ++ r) (hr : r ≠ []) : decodeMsg z field (h ++ s ++ kb ++ bs) = .eof := by
  unfold decodeMsg
  rw [show h ++ s ++ kb ++ bs = h ++ (s ++ (kb ++ bs)) by simp, (readMapHeader_exact (h ++ (s ++ (kb ++ bs))) n (s ++ (kb ++ bs))).2 ⟨h, hh, rfl⟩]
  obtain ⟨m, rfl⟩ : ∃ m, n = k + (m + 1) := ⟨n - k - 1, by omega⟩
  simp only [Dec.bind]
  rw [decodeFields_entries hE hs, decodeFields, (readKey_exact (kb ++ bs) key bs).2 ⟨kb, hkey, rfl⟩]
  simp only [Dec.bind, hfield, unknownField, skip_cut hv hcut hr]

/-- The bytes are a beginning of a record of a later version: a map of which some entries are complete and the next one has an unknown name and a value that is cut off. -/
inductive CutUnknown {σ : Type} (E : σ → Str → σ → Prop) (known : List Str) (z : σ) : Str → Prop where
  | mk {h s kb v bs r key : Str} {n k : Nat} {z' : σ} : MapHead h n → MapEntries E k z s z' → k < n → IsKey key kb → key ∉ known → IsMsg v → v = bs ++ r → r ≠ [] → CutUnknown E known z (h ++ s ++ kb ++ bs)

/-- **C66 (cut off).** If a file ends inside the value of an unknown entry, wherever that is, this is taken for the end of the file, not for an error: the record is dropped silently. (Inside the value of a
known entry it is an error: C37.) -/
theorem C66_cut_in_unknown (bs : Str) :
    (CutUnknown RowField [b!"c", b!"p", b!"bp"] {} bs → readAll DRow.decode bs = ([], true)) ∧
    (CutUnknown BlameField [b!"p", b!"c", b!"lp", b!"ib"] {} bs → readAll DBlame.decode bs = ([], true)) ∧
    (CutUnknown LineField [b!"p", b!"c", b!"ldp"] {} bs → readAll DLine.decode bs = ([], true)) ∧
    (CutUnknown LineDataField [b!"p", b!"d"] {} bs → readAll DLineData.decode bs = ([], true)) := by
  have fin : ∀ {σ : Type} {dec : Str → Dec σ} {bs : Str}, dec bs = .eof → readAll dec bs = ([], true) := by
    intro σ dec bs h
    rw [readAll, h]
  refine ⟨?_, ?_, ?_, ?_⟩
  · intro h
    cases h with
    | mk h1 h2 h3 h4 h5 h6 h7 h8 =>
      simp only [List.mem_cons, List.not_mem_nil, or_false, not_or] at h5
      exact fin (decode_cut_unknown row_entry h1 h2 h3 h4 (fun x => by unfold DRow.field; rw [if_neg h5.1, if_neg h5.2.1, if_neg h5.2.2]) h6 h7 h8)
  · intro h
    cases h with
    | mk h1 h2 h3 h4 h5 h6 h7 h8 =>
      simp only [List.mem_cons, List.not_mem_nil, or_false, not_or] at h5
      exact fin (decode_cut_unknown blame_entry h1 h2 h3 h4 (fun x => by unfold DBlame.field; rw [if_neg h5.1, if_neg h5.2.1, if_neg h5.2.2.1, if_neg h5.2.2.2]) h6 h7 h8)
  · intro h
    cases h with
    | mk h1 h2 h3 h4 h5 h6 h7 h8 =>
      simp only [List.mem_cons, List.not_mem_nil, or_false, not_or] at h5
      exact fin (decode_cut_unknown line_entry h1 h2 h3 h4 (fun x => by unfold DLine.field; rw [if_neg h5.1, if_neg h5.2.1, if_neg h5.2.2]) h6 h7 h8)
  · intro h
    cases h with
    | mk h1 h2 h3 h4 h5 h6 h7 h8 =>
      simp only [List.mem_cons, List.not_mem_nil, or_false, not_or] at h5
      exact fin (decode_cut_unknown lineData_entry h1 h2 h3 h4 (fun x => by unfold DLineData.field; rw [if_neg h5.1, if_neg h5.2]) h6 h7 h8)

/-- A row of two entries, of which the second, unknown one is a string of which one byte is missing. -/
example : CutUnknown RowField [b!"c", b!"p", b!"bp"] {} ([0x82] ++ ([0xa1, 0x63] ++ [0xa1, 0x78] ++ []) ++ [0xa1, 0x7a] ++ [0xa2, 0x61]) := by
  refine .mk (n := 2) (k := 1) (v := [0xa2, 0x61, 0x62]) (r := [0x62]) (key := b!"z") (.inl ⟨by decide, rfl⟩) (.cons (.commit (s := b!"x") ⟨by decide, .inl ⟨_, .inl ⟨by decide, rfl⟩, rfl⟩⟩ ⟨_, .inl ⟨by decide, rfl⟩, rfl⟩) .nil)
    (by decide) ⟨by decide, .inl ⟨_, .inl ⟨by decide, rfl⟩, rfl⟩⟩ (by decide) (.str (s := b!"ab") ⟨_, .inl ⟨by decide, rfl⟩, rfl⟩) rfl (by decide)

/-- The fields in another order, an unknown entry with an array of a map and a float, a number in eight bytes and a commit that occurs twice. -/
example : DRow.decode ([0x85, 0xa2, 0x62, 0x70, 0xcf, 0, 0, 0, 0, 0, 0, 0, 7, 0xa1, 0x63, 0xa1, 0x78, 0xc4, 1, 0x7a, 0x92, 0x81, 0xa1, 0x61, 0xc0, 0xca, 1, 2, 3, 4,
    0xa1, 0x70, 0xd9, 1, 0x66, 0xa1, 0x63, 0xa2, 0x61, 0x62] ++ [1, 2]) = .ok ⟨b!"ab", b!"f", 7⟩ [1, 2] := by
  decide +kernel

/-- A value of another type is refused. -/
example : ¬ ∃ z rest, DRow.decode [0x81, 0xa1, 0x63, 0x07] = .ok z rest := by
  have : DRow.decode [0x81, 0xa1, 0x63, 0x07] = .bad := by decide +kernel
  rw [this]
  rintro ⟨z, rest, h⟩
  cases h

end Ripsrc
