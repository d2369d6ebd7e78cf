import Verif.Lib.Msgp
import Verif.Spec.Disk
/-!
# The four record types
-/
namespace Ripsrc
open Spec

/-- The parts of a list of fields. -/
def fieldParts {σ : Type} (fs : List (Field σ)) : List Part := fs.flatMap (fun f => [(false, f.key.length), (true, f.val.length)])

theorem flags_length (ps : List Part) : (flags ps).length = (ps.map (·.2)).sum := by
  induction ps with
  | nil => rfl
  | cons p ps ih => simp only [flags, List.flatMap_cons, List.length_append, List.length_replicate, List.map_cons, List.sum_cons] at ih ⊢; rw [ih]

theorem cutClean_iff {σ : Type} (fs : List (Field σ)) (n : Nat) : cutClean fs n = true ↔ (flags (fieldParts fs))[n]? ≠ some true := by
  induction fs generalizing n with
  | nil => simp [cutClean, fieldParts, flags]
  | cons f fs ih =>
    have hf : flags (fieldParts (f :: fs)) = List.replicate f.key.length false ++ (List.replicate f.val.length true ++ flags (fieldParts fs)) := by
      simp [flags, fieldParts, List.flatMap_cons]
    rw [hf, cutClean]
    by_cases h1 : n < f.key.length
    · rw [if_pos h1, List.getElem?_append_left (by simpa using h1), List.getElem?_replicate_of_lt h1]
      simp
    · rw [if_neg h1, List.getElem?_append_right (by simpa using h1), List.length_replicate]
      by_cases h2 : n < f.key.length + f.val.length
      · rw [if_pos h2, List.getElem?_append_left (by simp; omega), List.getElem?_replicate_of_lt (by omega)]
        simp
      · rw [if_neg h2, List.getElem?_append_right (by simp; omega), List.length_replicate, ih]
        have : n - f.key.length - f.val.length = n - (f.key.length + f.val.length) := by omega
        rw [this]

theorem recordCutClean_iff {σ : Type} (fs : List (Field σ)) (n : Nat) :
    recordCutClean fs n = true ↔ (flags ((false, 1) :: fieldParts fs))[n]? ≠ some true := by
  cases n with
  | zero => simp [recordCutClean, flags]
  | succ n =>
    rw [recordCutClean, cutClean_iff]
    simp [flags, List.flatMap_cons]

/-- What is used of a record type. -/
structure RecType (σ : Type) (dec : Str → Dec σ) (enc : σ → Str) (lay : σ → List Part) (small : σ → Prop) : Prop where
  full : ∀ a, small a → ∀ rest, dec (enc a ++ rest) = .ok a rest
  cut : ∀ a, small a → ∀ s t, enc a = s ++ t → t ≠ [] → dec s = .eof ∧ (flags (lay a))[s.length]? ≠ some true ∨ dec s = .bad ∧ (flags (lay a))[s.length]? = some true
  ne : ∀ a, enc a ≠ []
  nil : dec [] = .eof
  len : ∀ a, small a → (flags (lay a)).length = (enc a).length

theorem recType_of {σ : Type} {init : σ} {field : σ → Str → Str → Dec σ} {enc : σ → Str} {lay : σ → List Part} {small : σ → Prop}
    (fs : σ → List (Field σ)) (h : ∀ a, small a → RecordOk init field (enc a) a (fs a)) (hl : ∀ a, small a → lay a = (false, 1) :: fieldParts (fs a))
    (hne : ∀ a, enc a ≠ []) : RecType σ (decodeMsg init field) enc lay small := by
  refine ⟨fun a ha => record_full (h a ha), ?_, hne, rfl, ?_⟩
  · intro a ha s t he ht
    have := record_cut (h a ha) s t he ht
    rw [this, hl a ha]
    by_cases hc : recordCutClean (fs a) s.length = true
    · left
      refine ⟨by rw [hc]; rfl, (recordCutClean_iff _ _).1 hc⟩
    · right
      refine ⟨?_, ?_⟩
      · rw [Bool.not_eq_true] at hc
        rw [hc]; rfl
      · exact Classical.not_not.1 (fun hn => hc ((recordCutClean_iff _ _).2 hn))
  · intro a ha
    rw [hl a ha, flags_length, (h a ha).bytes]
    simp only [List.map_cons, List.sum_cons, List.length_cons]
    generalize fs a = l
    have : ((fieldParts l).map (·.2)).sum = (fieldBytes l).length := by
      induction l with
      | nil => rfl
      | cons f l ih =>
        simp only [fieldParts, List.flatMap_cons, List.map_append, List.sum_append, List.map_cons, List.map_nil, List.sum_cons, List.sum_nil,
          fieldBytes, List.length_append] at ih ⊢
        omega
    omega

theorem key_reads (k : Str) {kb : Str} (hk : kb = UInt8.ofNat (0xa0 + k.length) :: k) (h0 : k ≠ []) (h : k.length < 32) : Reads readKey kb k := by
  subst hk
  refine readKey_mono.reads ?_
  intro rest
  have h1 : (UInt8.ofNat (0xa0 + k.length)).toNat = 0xa0 + k.length := u8_toNat (by omega)
  have h2 : 0xa0 ≤ UInt8.ofNat (0xa0 + k.length) ∧ UInt8.ofNat (0xa0 + k.length) ≤ 0xbf := by
    rw [UInt8.le_iff_toNat_le, UInt8.le_iff_toNat_le, h1]
    show 160 ≤ _ ∧ _ ≤ 191
    omega
  simp only [List.cons_append, readKey]
  rw [if_pos h2, h1, Nat.add_sub_cancel_left, nextKey, if_neg (by simpa using h0)]
  exact next_append rfl rest

def DRow.fields (z : DRow) : List (Field DRow) :=
  [{ key := [0xa1, 0x63], val := encStr z.commit, upd := fun s => { s with commit := z.commit } },
   { key := [0xa1, 0x70], val := encStr z.path, upd := fun s => { s with path := z.path } },
   { key := [0xa2, 0x62, 0x70], val := encUint z.blamePointer, upd := fun s => { s with blamePointer := z.blamePointer } }]

theorem row_type : RecType DRow DRow.decode DRow.encode DRow.layout DRow.Small := by
  refine recType_of DRow.fields ?_ ?_ ?_
  · intro z hz
    refine ⟨by simp [DRow.fields], ?_, ?_, ?_⟩
    · intro f hf
      simp only [DRow.fields, List.mem_cons, List.not_mem_nil, or_false] at hf
      rcases hf with rfl | rfl | rfl
      · exact ⟨b!"c", key_reads b!"c" rfl (by simp) (by simp), fun s => ⟨_, fun _ => rfl, (str_reads hz.1).map _⟩⟩
      · exact ⟨b!"p", key_reads b!"p" rfl (by simp) (by simp), fun s => ⟨_, fun _ => rfl, (str_reads hz.2).map _⟩⟩
      · exact ⟨b!"bp", key_reads b!"bp" rfl (by simp) (by simp), fun s => ⟨_, fun _ => rfl, (uint_reads _).map _⟩⟩
    · simp [DRow.encode, DRow.fields, fieldBytes]
    · rfl
  · intro z _
    simp [DRow.layout, DRow.fields, fieldParts]
  · intro z
    simp [DRow.encode]

def DBlame.fields (z : DBlame) : List (Field DBlame) :=
  [{ key := [0xa1, 0x70], val := encUint z.pointer, upd := fun s => { s with pointer := z.pointer } },
   { key := [0xa1, 0x63], val := encStr z.commit, upd := fun s => { s with commit := z.commit } },
   { key := [0xa2, 0x6c, 0x70], val := encArrayHeader (len32 z.linePointers.length) ++ z.linePointers.flatMap encUint,
     upd := fun s => { s with linePointers := z.linePointers } },
   { key := [0xa2, 0x69, 0x62], val := encBool z.isBinary, upd := fun s => { s with isBinary := z.isBinary } }]

theorem blame_field_lp (s : DBlame) : DBlame.field s b!"lp" =
    fun bs => (((readArrayHeader bs).bind (fun n r => readMany readUint n r)).bind (fun x r => .ok { s with linePointers := x } r)).ctx := by
  funext bs
  have : DBlame.field s b!"lp" bs = ((readArrayHeader bs).bind (fun n r => (readMany readUint n r).bind (fun x r => .ok { s with linePointers := x } r))).ctx := rfl
  rw [this]
  cases readArrayHeader bs <;> rfl

theorem blame_type : RecType DBlame DBlame.decode DBlame.encode DBlame.layout DBlame.Small := by
  refine recType_of DBlame.fields ?_ ?_ ?_
  · intro z hz
    refine ⟨by simp [DBlame.fields], ?_, ?_, ?_⟩
    · intro f hf
      simp only [DBlame.fields, List.mem_cons, List.not_mem_nil, or_false] at hf
      rcases hf with rfl | rfl | rfl | rfl
      · exact ⟨b!"p", key_reads b!"p" rfl (by simp) (by simp), fun s => ⟨_, fun _ => rfl, (uint_reads _).map _⟩⟩
      · exact ⟨b!"c", key_reads b!"c" rfl (by simp) (by simp), fun s => ⟨_, fun _ => rfl, (str_reads hz.1).map _⟩⟩
      · refine ⟨b!"lp", key_reads b!"lp" rfl (by simp) (by simp), fun s => ?_⟩
        rw [blame_field_lp]
        exact ⟨_, fun _ => rfl, (array_reads hz.2).map _⟩
      · exact ⟨b!"ib", key_reads b!"ib" rfl (by simp) (by simp), fun s => ⟨_, fun _ => rfl, (bool_reads _).map _⟩⟩
    · simp [DBlame.encode, DBlame.fields, fieldBytes]
    · rfl
  · intro z hz
    have : len32 z.linePointers.length = z.linePointers.length := Nat.mod_eq_of_lt hz.2
    have hb : (encBool z.isBinary).length = 1 := by cases z.isBinary <;> rfl
    simp [DBlame.layout, DBlame.fields, fieldParts, this, hb]
  · intro z
    simp [DBlame.encode]

def DLine.fields (z : DLine) : List (Field DLine) :=
  [{ key := [0xa1, 0x70], val := encUint z.pointer, upd := fun s => { s with pointer := z.pointer } },
   { key := [0xa1, 0x63], val := encStr z.commit, upd := fun s => { s with commit := z.commit } },
   { key := [0xa3, 0x6c, 0x64, 0x70], val := encUint z.lineDataPointer, upd := fun s => { s with lineDataPointer := z.lineDataPointer } }]

theorem line_type : RecType DLine DLine.decode DLine.encode DLine.layout DLine.Small := by
  refine recType_of DLine.fields ?_ ?_ ?_
  · intro z hz
    refine ⟨by simp [DLine.fields], ?_, ?_, ?_⟩
    · intro f hf
      simp only [DLine.fields, List.mem_cons, List.not_mem_nil, or_false] at hf
      rcases hf with rfl | rfl | rfl
      · exact ⟨b!"p", key_reads b!"p" rfl (by simp) (by simp), fun s => ⟨_, fun _ => rfl, (uint_reads _).map _⟩⟩
      · exact ⟨b!"c", key_reads b!"c" rfl (by simp) (by simp), fun s => ⟨_, fun _ => rfl, (str_reads hz).map _⟩⟩
      · exact ⟨b!"ldp", key_reads b!"ldp" rfl (by simp) (by simp), fun s => ⟨_, fun _ => rfl, (uint_reads _).map _⟩⟩
    · simp [DLine.encode, DLine.fields, fieldBytes]
    · rfl
  · intro z _
    simp [DLine.layout, DLine.fields, fieldParts]
  · intro z
    simp [DLine.encode]

def DLineData.fields (z : DLineData) : List (Field DLineData) :=
  [{ key := [0xa1, 0x70], val := encUint z.pointer, upd := fun s => { s with pointer := z.pointer } },
   { key := [0xa1, 0x64], val := encBin z.data, upd := fun s => { s with data := z.data } }]

theorem lineData_type : RecType DLineData DLineData.decode DLineData.encode DLineData.layout DLineData.Small := by
  refine recType_of DLineData.fields ?_ ?_ ?_
  · intro z hz
    refine ⟨by simp [DLineData.fields], ?_, ?_, ?_⟩
    · intro f hf
      simp only [DLineData.fields, List.mem_cons, List.not_mem_nil, or_false] at hf
      rcases hf with rfl | rfl
      · exact ⟨b!"p", key_reads b!"p" rfl (by simp) (by simp), fun s => ⟨_, fun _ => rfl, (uint_reads _).map _⟩⟩
      · exact ⟨b!"d", key_reads b!"d" rfl (by simp) (by simp), fun s => ⟨_, fun _ => rfl, (bin_reads hz).map _⟩⟩
    · simp [DLineData.encode, DLineData.fields, fieldBytes]
    · rfl
  · intro z _
    simp [DLineData.layout, DLineData.fields, fieldParts]
  · intro z
    simp [DLineData.encode]

/-! ## Streams -/

section
variable {σ : Type} {dec : Str → Dec σ} {enc : σ → Str} {lay : σ → List Part} {small : σ → Prop}

theorem RecType.stream (h : RecType σ dec enc lay small) (l : List σ) (hl : ∀ a ∈ l, small a) : readAll dec (l.flatMap enc) = (l, true) := by
  have := readAll_stream (enc := enc) l (fun a ha => h.full a (hl a ha)) (fun a _ => h.ne a) []
  rw [List.append_nil] at this
  rw [this, readAll, h.nil, List.append_nil]

/-- A stream cut after `n` bytes: whole records and the beginning of one more. -/
theorem stream_split (l : List σ) (enc : σ → Str) (n : Nat) :
    ∃ k, k ≤ l.length ∧ ((l.take k).flatMap enc).length ≤ n ∧ (k < l.length → n < ((l.take (k + 1)).flatMap enc).length) := by
  induction l generalizing n with
  | nil => exact ⟨0, by simp⟩
  | cons a l ih =>
    by_cases h : (enc a).length ≤ n
    · obtain ⟨k, h1, h2, h3⟩ := ih (n - (enc a).length)
      refine ⟨k + 1, by simpa using h1, ?_, ?_⟩
      · simp only [List.take_succ_cons, List.flatMap_cons, List.length_append]; omega
      · intro hk
        have := h3 (by simpa using hk)
        simp only [List.take_succ_cons, List.flatMap_cons, List.length_append] at this ⊢; omega
    · exact ⟨0, by simp, by simp, fun _ => by simp; omega⟩

theorem RecType.cutResult (h : RecType σ dec enc lay small) (l : List σ) (hl : ∀ a ∈ l, small a) (n : Nat) :
    CutResult enc lay l n (readAll dec ((l.flatMap enc).take n)) := by
  obtain ⟨k, h1, h2, h3⟩ := stream_split l enc n
  have hfl : ∀ l' : List σ, (∀ a ∈ l', small a) → (l'.flatMap (fun r => flags (lay r))).length = (l'.flatMap enc).length := by
    intro l' hl'
    induction l' with
    | nil => rfl
    | cons a l' ih =>
      simp only [List.flatMap_cons, List.length_append]
      rw [h.len a (hl' a (by simp)), ih (fun b hb => hl' b (by simp [hb]))]
  have hsm : ∀ a ∈ l.take k, small a := fun a ha => hl a (List.take_subset _ _ ha)
  by_cases hk : k < l.length
  · have h3 := h3 hk
    have hd : l = l.take k ++ l[k] :: l.drop (k + 1) := by
      rw [List.getElem_cons_drop]; simp
    have ha : small l[k] := hl _ (List.getElem_mem hk)
    have htk : l.take (k + 1) = l.take k ++ [l[k]] := by rw [List.take_add_one, List.getElem?_eq_getElem hk]; rfl
    rw [htk, List.flatMap_append, List.length_append] at h3
    simp only [List.flatMap_cons, List.flatMap_nil, List.append_nil] at h3
    have e1 : (l.flatMap enc).take n = (l.take k).flatMap enc ++ (enc l[k]).take (n - ((l.take k).flatMap enc).length) := by
      conv => lhs; rw [hd]
      rw [List.flatMap_append, List.flatMap_cons, List.take_append, List.take_append_of_le_length (by omega), List.take_of_length_le h2]
    have e2 : (l.flatMap (fun r => flags (lay r)))[n]? = (flags (lay l[k]))[n - ((l.take k).flatMap enc).length]? := by
      conv => lhs; rw [hd]
      rw [List.flatMap_append, List.flatMap_cons, List.getElem?_append_right (by rw [hfl _ hsm]; exact h2), hfl _ hsm,
        List.getElem?_append_left (by rw [h.len _ ha]; omega)]
    generalize hm : n - ((l.take k).flatMap enc).length = m at e1 e2
    have hlen : ((enc l[k]).take m).length = m := by rw [List.length_take]; omega
    have hc := h.cut l[k] ha ((enc l[k]).take m) ((enc l[k]).drop m) (by simp) (by
      intro hh
      have := congrArg List.length hh
      simp at this; omega)
    rw [hlen] at hc
    have hst := readAll_stream (enc := enc) (l.take k) (fun a ha => h.full a (hsm a ha)) (fun a _ => h.ne a) ((enc l[k]).take m)
    rw [← e1] at hst
    refine ⟨k, h1, ?_, h2, ?_, ?_⟩
    · rw [hst]
      rcases hc with ⟨hc, _⟩ | ⟨hc, _⟩ <;> rw [readAll, hc] <;> simp
    · intro _
      rw [htk, List.flatMap_append, List.length_append]
      simpa using h3
    · rw [hst, e2]
      rcases hc with ⟨hc, hv⟩ | ⟨hc, hv⟩
      · rw [readAll, hc]
        exact ⟨fun _ => hv, fun _ => rfl⟩
      · rw [readAll, hc]
        exact ⟨fun hh => by simp at hh, fun hh => absurd hv hh⟩
  · have hkl : k = l.length := by omega
    subst hkl
    have htl : l.take l.length = l := List.take_length
    rw [htl] at h2
    refine ⟨l.length, Nat.le_refl _, ?_, by rw [htl]; exact h2, fun hh => absurd hh hk, ?_⟩
    · rw [List.take_of_length_le h2, h.stream l hl, htl]
    · rw [List.take_of_length_le h2, h.stream l hl, List.getElem?_eq_none (by rw [hfl l hl]; exact h2)]
      simp

end
end Ripsrc
