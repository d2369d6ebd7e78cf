import Verif.Spec.Codec
import Verif.Lib.Disk
import Verif.Props.MsgPack
/-!
# C67: what is written fits, is one object, and is read back into any object
-/
namespace Ripsrc
open Spec

theorem Exact.of_full {α : Type} {rd : Str → Dec α} {P : α → Str → Prop} (h : Exact rd P) {enc : Str} {a : α} (hf : ∀ rest, rd (enc ++ rest) = .ok a rest) : P a enc := by
  obtain ⟨b, hb, he⟩ := (h (enc ++ []) a []).1 (hf [])
  rw [List.append_nil, List.append_nil] at he
  rwa [he]

theorem encStr_is {s : Str} (h : s.length < 2 ^ 32) : IsStr s (encStr s) := readStr_exact.of_full (str_reads h).full
theorem encBin_is {s : Str} (h : s.length < 2 ^ 32) : IsBytes s (encBin s) := readBin_exact.of_full (bin_reads h).full
theorem encUint_is (u : UInt64) : IsUint u (encUint u) := readUint_exact.of_full (uint_reads u).full
theorem encBool_is (x : Bool) : IsBool x (encBool x) := readBool_exact.of_full (bool_reads x).full
theorem encArray_is {l : List UInt64} (h : l.length < 2 ^ 32) : IsArray IsUint l (encArrayHeader (len32 l.length) ++ l.flatMap encUint) :=
  (readArray_exact readUint_exact).of_full (array_reads h).full
theorem key_is (k : Str) {kb : Str} (hk : kb = UInt8.ofNat (0xa0 + k.length) :: k) (h0 : k ≠ []) (h : k.length < 32) : IsKey k kb :=
  readKey_exact.of_full (key_reads k hk h0 h).full

theorem Spec.IsUint.msg {u : UInt64} {b : Str} (h : IsUint u b) : IsMsg b := by
  rcases h with ⟨h1, rfl⟩ | h | ⟨h, _⟩
  · refine .one (.inl ?_)
    rw [UInt8.lt_iff_toNat_lt, u8_toNat (by omega)]
    exact h1
  · generalize u.toNat = n at h
    cases h with
    | mk hm hl => exact .fixed (by simp only [List.mem_cons, Prod.mk.injEq, List.not_mem_nil, or_false] at hm; rcases hm with ⟨rfl, rfl⟩ | ⟨rfl, rfl⟩ | ⟨rfl, rfl⟩ | ⟨rfl, rfl⟩ <;> decide) hl
  · generalize u.toNat = n at h
    cases h with
    | mk hm hl => exact .fixed (by simp only [List.mem_cons, Prod.mk.injEq, List.not_mem_nil, or_false] at hm; rcases hm with ⟨rfl, rfl⟩ | ⟨rfl, rfl⟩ | ⟨rfl, rfl⟩ | ⟨rfl, rfl⟩ <;> decide) hl

theorem Spec.IsBool.msg {x : Bool} {b : Str} (h : IsBool x b) : IsMsg b := by
  unfold IsBool at h
  subst h
  cases x
  · exact .one (by decide)
  · exact .one (by decide)

theorem Spec.Seq.msgs {α : Type} {P : α → Str → Prop} {l : List α} {b : Str} (hP : ∀ a b, P a b → IsMsg b) (h : Seq P l b) : IsMsgs l.length b := by
  induction h with
  | nil => exact .nil
  | cons h1 _ ih => exact .cons (hP _ _ h1) ih

theorem Spec.IsArray.msg {α : Type} {P : α → Str → Prop} {l : List α} {b : Str} (hP : ∀ a b, P a b → IsMsg b) (h : IsArray P l b) : IsMsg b := by
  obtain ⟨h, s, h1, h2, rfl⟩ := h
  exact .array h1 (Seq.msgs hP h2)

theorem Spec.IsKey.msg {k b : Str} (h : IsKey k b) : IsMsg b := h.2.elim .str .bin

theorem pair_msgs {k kb v : Str} (hk : IsKey k kb) (hv : IsMsg v) : IsMsgs 2 (kb ++ v) := by
  have := IsMsgs.cons hk.msg (.cons hv .nil)
  simpa using this

theorem Spec.MapEntries.msgs {σ : Type} {E : σ → Str → σ → Prop} (hE : ∀ z b z', E z b z' → IsMsgs 2 b) {n : Nat} {z z' : σ} {b : Str} (h : MapEntries E n z b z') :
    IsMsgs (2 * n) b := by
  induction h with
  | nil => exact .nil
  | cons h1 _ ih =>
    rw [Nat.mul_add, Nat.mul_one, Nat.add_comm]
    exact isMsgs_append (hE _ _ _ h1) ih

theorem Spec.IsMap.msg {σ : Type} {E : σ → Str → σ → Prop} (hE : ∀ z b z', E z b z' → IsMsgs 2 b) {z z' : σ} {b : Str} (h : IsMap E z b z') : IsMsg b := by
  obtain ⟨h, s, n, h1, h2, rfl⟩ := h
  exact .map h1 (MapEntries.msgs hE h2)

theorem Spec.Foreign.msgs {l : List Str} {b : Str} (h : Foreign l b) : IsMsgs 2 b := by
  cases h with
  | mk h1 _ h2 => exact pair_msgs h1 h2

theorem Spec.RowField.msgs {z z' : DRow} {b : Str} (h : RowField z b z') : IsMsgs 2 b := by
  cases h with
  | commit h1 h2 => exact pair_msgs h1 (.str h2)
  | path h1 h2 => exact pair_msgs h1 (.str h2)
  | blame h1 h2 => exact pair_msgs h1 h2.msg
  | other h => exact h.msgs

theorem Spec.BlameField.msgs {z z' : DBlame} {b : Str} (h : BlameField z b z') : IsMsgs 2 b := by
  cases h with
  | pointer h1 h2 => exact pair_msgs h1 h2.msg
  | commit h1 h2 => exact pair_msgs h1 (.str h2)
  | lines h1 h2 => exact pair_msgs h1 (IsArray.msg (fun _ _ h => h.msg) h2)
  | binary h1 h2 => exact pair_msgs h1 h2.msg
  | other h => exact h.msgs

theorem Spec.LineField.msgs {z z' : DLine} {b : Str} (h : LineField z b z') : IsMsgs 2 b := by
  cases h with
  | pointer h1 h2 => exact pair_msgs h1 h2.msg
  | commit h1 h2 => exact pair_msgs h1 (.str h2)
  | data h1 h2 => exact pair_msgs h1 h2.msg
  | other h => exact h.msgs

theorem Spec.LineDataField.msgs {z z' : DLineData} {b : Str} (h : LineDataField z b z') : IsMsgs 2 b := by
  cases h with
  | pointer h1 h2 => exact pair_msgs h1 h2.msg
  | data h1 h2 => exact pair_msgs h1 (.bin h2)
  | other h => exact h.msgs

/-- Written by entries one after the other. -/
theorem row_is {z : DRow} (hz : DRow.Small z) (z0 : DRow) : IsMap RowField z0 z.encode z := by
  refine ⟨[0x83], _, 3, .inl ⟨by omega, rfl⟩, .cons (.commit (key_is b!"c" (kb := [0xa1, 0x63]) rfl (by simp) (by simp)) (encStr_is hz.1))
    (.cons (.path (key_is b!"p" (kb := [0xa1, 0x70]) rfl (by simp) (by simp)) (encStr_is hz.2))
      (.cons (.blame (key_is b!"bp" (kb := [0xa2, 0x62, 0x70]) rfl (by simp) (by simp)) (encUint_is z.blamePointer)) .nil)), ?_⟩
  simp [DRow.encode]

theorem blame_is {z : DBlame} (hz : DBlame.Small z) (z0 : DBlame) : IsMap BlameField z0 z.encode z := by
  refine ⟨[0x84], _, 4, .inl ⟨by omega, rfl⟩, .cons (.pointer (key_is b!"p" (kb := [0xa1, 0x70]) rfl (by simp) (by simp)) (encUint_is z.pointer))
    (.cons (.commit (key_is b!"c" (kb := [0xa1, 0x63]) rfl (by simp) (by simp)) (encStr_is hz.1))
      (.cons (.lines (key_is b!"lp" (kb := [0xa2, 0x6c, 0x70]) rfl (by simp) (by simp)) (encArray_is hz.2))
        (.cons (.binary (key_is b!"ib" (kb := [0xa2, 0x69, 0x62]) rfl (by simp) (by simp)) (encBool_is z.isBinary)) .nil))), ?_⟩
  simp [DBlame.encode]

theorem line_is {z : DLine} (hz : DLine.Small z) (z0 : DLine) : IsMap LineField z0 z.encode z := by
  refine ⟨[0x83], _, 3, .inl ⟨by omega, rfl⟩, .cons (.pointer (key_is b!"p" (kb := [0xa1, 0x70]) rfl (by simp) (by simp)) (encUint_is z.pointer))
    (.cons (.commit (key_is b!"c" (kb := [0xa1, 0x63]) rfl (by simp) (by simp)) (encStr_is hz))
      (.cons (.data (key_is b!"ldp" (kb := [0xa3, 0x6c, 0x64, 0x70]) rfl (by simp) (by simp)) (encUint_is z.lineDataPointer)) .nil)), ?_⟩
  simp [DLine.encode]

theorem lineData_is {z : DLineData} (hz : DLineData.Small z) (z0 : DLineData) : IsMap LineDataField z0 z.encode z := by
  refine ⟨[0x82], _, 2, .inl ⟨by omega, rfl⟩, .cons (.pointer (key_is b!"p" (kb := [0xa1, 0x70]) rfl (by simp) (by simp)) (encUint_is z.pointer))
    (.cons (.data (key_is b!"d" (kb := [0xa1, 0x64]) rfl (by simp) (by simp)) (encBin_is hz)) .nil), ?_⟩
  simp [DLineData.encode]

/-! ## UnmarshalMsg -/

theorem readKeyZC_of {bs k r : Str} (h : readKey bs = .ok k r) : readKeyZC bs = .ok k r := by
  obtain ⟨b, ⟨_, hb⟩, rfl⟩ := (readKey_exact _ _ _).1 h
  unfold readKeyZC
  rcases hb with hb | hb
  · rw [(readStr_exact _ _ _).2 ⟨b, hb, rfl⟩]
  · have h1 := (readBin_exact (b ++ r) k r).2 ⟨b, hb, rfl⟩
    have h2 : readStr (b ++ r) = .bad := by
      obtain ⟨hd, hh, rfl⟩ := hb
      unfold BinHead at hh
      generalize List.length _ = n at hh
      cases hh with
      | mk hm hl =>
        simp only [List.mem_cons, Prod.mk.injEq, List.not_mem_nil, or_false] at hm
        rcases hm with ⟨rfl, rfl⟩ | ⟨rfl, rfl⟩ | ⟨rfl, rfl⟩ <;> rfl
    rw [h2]
    exact h1

/-- What `DecodeMsg` accepts, `UnmarshalMsg` accepts with the same result. -/
theorem unmarshal_of_decode {σ : Type} {f g : σ → Str → Str → Dec σ} (hfg : ∀ z k bs z' r, f z k bs = .ok z' r → g z k bs = .ok z' r) {z z' : σ} {bs r : Str}
    (h : decodeMsg z f bs = .ok z' r) : unmarshalMsg z g bs = .ok z' r := by
  have key : ∀ n z bs, decodeFields f n z bs = .ok z' r → unmarshalFields g n z bs = .ok z' r := by
    intro n
    induction n with
    | zero => intro z bs h; exact h
    | succ n ih =>
      intro z bs h
      rw [decodeFields] at h
      rw [unmarshalFields]
      cases hk : readKey bs with
      | eof => rw [hk] at h; cases h
      | bad => rw [hk] at h; cases h
      | ok k r1 =>
        rw [hk] at h
        rw [readKeyZC_of hk]
        simp only [Dec.bind] at h ⊢
        cases hf : f z k r1 with
        | eof => rw [hf] at h; cases h
        | bad => rw [hf] at h; cases h
        | ok z1 r2 =>
          rw [hf] at h
          rw [hfg _ _ _ _ _ hf]
          exact ih z1 r2 h
  unfold decodeMsg at h
  unfold unmarshalMsg
  cases hm : readMapHeader bs with
  | eof => rw [hm] at h; cases h
  | bad => rw [hm] at h; cases h
  | ok n r1 => rw [hm] at h; exact key n z r1 h

/-! ## Sizes -/

theorem encUint_length (u : UInt64) : (encUint u).length ≤ 9 := by
  unfold encUint
  dsimp only
  split
  · simp
  · split
    · simp [beBytes_length]
    · split
      · simp [beBytes_length]
      · split <;> simp [beBytes_length]

theorem encStr_length (s : Str) : (encStr s).length ≤ 5 + s.length := by
  unfold encStr
  dsimp only
  rw [List.length_append]
  split
  · simp
  · split
    · simp [beBytes_length]
    · split <;> simp [beBytes_length]

theorem encBin_length (s : Str) : (encBin s).length ≤ 5 + s.length := by
  unfold encBin
  dsimp only
  rw [List.length_append]
  split
  · simp [beBytes_length]
  · split <;> simp [beBytes_length]

theorem encArrayHeader_length (n : Nat) : (encArrayHeader n).length ≤ 5 := by
  unfold encArrayHeader
  split
  · simp
  · split <;> simp [beBytes_length]

theorem encBool_length (x : Bool) : (encBool x).length = 1 := by cases x <;> rfl

theorem flatMap_length_le {α : Type} (f : α → Str) (m : Nat) (l : List α) (h : ∀ a, (f a).length ≤ m) : (l.flatMap f).length ≤ l.length * m := by
  induction l with
  | nil => simp
  | cons a l ih =>
    have := h a
    rw [List.flatMap_cons, List.length_append, List.length_cons, Nat.succ_mul]
    omega

theorem row_msgsize (z : DRow) : z.encode.length ≤ z.msgsize := by
  have h1 := encStr_length z.commit
  have h2 := encStr_length z.path
  have h3 := encUint_length z.blamePointer
  simp only [DRow.encode, DRow.msgsize, List.length_append, List.length_cons, List.length_nil]
  omega

theorem blame_msgsize (z : DBlame) : z.encode.length ≤ z.msgsize := by
  have h1 := encUint_length z.pointer
  have h2 := encStr_length z.commit
  have h3 := encArrayHeader_length (len32 z.linePointers.length)
  have h4 := flatMap_length_le encUint 9 z.linePointers encUint_length
  have h5 := encBool_length z.isBinary
  simp only [DBlame.encode, DBlame.msgsize, List.length_append, List.length_cons, List.length_nil]
  omega

theorem line_msgsize (z : DLine) : z.encode.length ≤ z.msgsize := by
  have h1 := encUint_length z.pointer
  have h2 := encStr_length z.commit
  have h3 := encUint_length z.lineDataPointer
  simp only [DLine.encode, DLine.msgsize, List.length_append, List.length_cons, List.length_nil]
  omega

theorem lineData_msgsize (z : DLineData) : z.encode.length ≤ z.msgsize := by
  have h1 := encUint_length z.pointer
  have h2 := encBin_length z.data
  simp only [DLineData.encode, DLineData.msgsize, List.length_append, List.length_cons, List.length_nil]
  omega

/-! ## MarshalMsg -/

theorem foldl_append {α : Type} {f : α → Str → Str} {g : α → Str} (h : ∀ a o, f a o = o ++ g a) (l : List α) (o : Str) :
    l.foldl (fun o a => f a o) o = o ++ l.flatMap g := by
  induction l generalizing o with
  | nil => simp
  | cons a l ih => rw [List.foldl_cons, h, ih, List.flatMap_cons, List.append_assoc]

theorem row_marshal (z : DRow) (b : Str) : z.marshal b = b ++ z.encode := by simp [DRow.marshal, DRow.encode]
theorem blame_marshal (z : DBlame) (b : Str) : z.marshal b = b ++ z.encode := by
  unfold DBlame.marshal
  dsimp only
  rw [foldl_append (f := fun u o => o ++ encUint u) (g := encUint) (fun _ _ => rfl)]
  simp [DBlame.encode]
theorem line_marshal (z : DLine) (b : Str) : z.marshal b = b ++ z.encode := by simp [DLine.marshal, DLine.encode]
theorem lineData_marshal (z : DLineData) (b : Str) : z.marshal b = b ++ z.encode := by simp [DLineData.marshal, DLineData.encode]

/-! ## The property -/

theorem skip_of {b : Str} (h : IsMsg b) (rest : Str) : skip (b ++ rest) = .ok () rest := (skip_exact _ _ _).2 ⟨b, h, rfl⟩

/-- C67 for rows. -/
theorem C67_rows : Codec DRow.encode DRow.marshal DRow.msgsize (fun z => decodeMsg z DRow.field) DRow.unmarshal DRow.Small Eq where
  marshal := row_marshal
  size := row_msgsize
  skipped z hz rest := skip_of (IsMap.msg (fun _ _ _ h => h.msgs) (row_is hz {})) rest
  decoded z hz z0 rest := ⟨z, (row_exact z0 _ z rest).2 ⟨_, row_is hz z0, rfl⟩, rfl⟩
  unmarshaled z hz z0 rest := ⟨z, unmarshal_of_decode (fun _ _ _ _ _ h => h) ((row_exact z0 _ z rest).2 ⟨_, row_is hz z0, rfl⟩), rfl⟩

/-- C67 for blames. -/
theorem C67_blames : Codec DBlame.encode DBlame.marshal DBlame.msgsize (fun z => decodeMsg z DBlame.field) DBlame.unmarshal DBlame.Small Eq where
  marshal := blame_marshal
  size := blame_msgsize
  skipped z hz rest := skip_of (IsMap.msg (fun _ _ _ h => h.msgs) (blame_is hz {})) rest
  decoded z hz z0 rest := ⟨z, (blame_exact z0 _ z rest).2 ⟨_, blame_is hz z0, rfl⟩, rfl⟩
  unmarshaled z hz z0 rest := ⟨z, unmarshal_of_decode (fun _ _ _ _ _ h => h) ((blame_exact z0 _ z rest).2 ⟨_, blame_is hz z0, rfl⟩), rfl⟩

/-- C67 for lines. -/
theorem C67_lines : Codec DLine.encode DLine.marshal DLine.msgsize (fun z => decodeMsg z DLine.field) DLine.unmarshal DLine.Small Eq where
  marshal := line_marshal
  size := line_msgsize
  skipped z hz rest := skip_of (IsMap.msg (fun _ _ _ h => h.msgs) (line_is hz {})) rest
  decoded z hz z0 rest := ⟨z, (line_exact z0 _ z rest).2 ⟨_, line_is hz z0, rfl⟩, rfl⟩
  unmarshaled z hz z0 rest := ⟨z, unmarshal_of_decode (fun _ _ _ _ _ h => h) ((line_exact z0 _ z rest).2 ⟨_, line_is hz z0, rfl⟩), rfl⟩

/-- C67 for line data. -/
theorem C67_line_data : Codec DLineData.encode DLineData.marshal DLineData.msgsize (fun z => decodeMsg z DLineData.field) DLineData.unmarshal DLineData.Small Eq where
  marshal := lineData_marshal
  size := lineData_msgsize
  skipped z hz rest := skip_of (IsMap.msg (fun _ _ _ h => h.msgs) (lineData_is hz {})) rest
  decoded z hz z0 rest := ⟨z, (lineData_exact z0 _ z rest).2 ⟨_, lineData_is hz z0, rfl⟩, rfl⟩
  unmarshaled z hz z0 rest := ⟨z, unmarshal_of_decode (fun _ _ _ _ _ h => h) ((lineData_exact z0 _ z rest).2 ⟨_, lineData_is hz z0, rfl⟩), rfl⟩

/-! ## Data -/

theorem resize_length {α : Type} (zero : α) (b : Buf α) (n : Nat) : (b.resize zero n).vis.length = n := by
  unfold Buf.resize
  split
  · simp only [List.length_take]; omega
  · simp

theorem decodeInto_full {α : Type} {dec : α → Str → Dec α} {enc : α → Str} (l : List α) (h : ∀ a ∈ l, ∀ z0 rest, dec z0 (enc a ++ rest) = .ok a rest) (stale : List α)
    (hl : stale.length = l.length) (rest : Str) : decodeInto dec stale (l.flatMap enc ++ rest) = .ok l rest := by
  induction l generalizing stale with
  | nil =>
    rw [List.length_eq_zero_iff.1 hl]
    rfl
  | cons a l ih =>
    cases stale with
    | nil => cases hl
    | cons z stale =>
      simp only [List.flatMap_cons, List.append_assoc, decodeInto]
      rw [h a (by simp)]
      simp only [Dec.bind]
      rw [ih (fun b hb => h b (by simp [hb])) stale (by simpa using hl)]

theorem decodeSlice_full {α : Type} {zero : α} {dec : α → Str → Dec α} {enc : α → Str} (l : List α) (h : ∀ a ∈ l, ∀ z0 rest, dec z0 (enc a ++ rest) = .ok a rest)
    (hl : l.length < 2 ^ 32) (b : Buf α) (rest : Str) :
    ∃ hid, decodeSlice zero dec b (encArrayHeader (len32 l.length) ++ l.flatMap enc ++ rest) = .ok ⟨l, hid⟩ rest := by
  have e : len32 l.length = l.length := Nat.mod_eq_of_lt hl
  refine ⟨(b.resize zero l.length).hid, ?_⟩
  unfold decodeSlice
  rw [e, List.append_assoc, arrayHeader_full hl]
  simp only [Dec.bind]
  rw [decodeInto_full l h _ (resize_length _ _ _)]

theorem flatMap_msgs {α : Type} {enc : α → Str} (l : List α) (h : ∀ a ∈ l, IsMsg (enc a)) : IsMsgs l.length (l.flatMap enc) := by
  induction l with
  | nil => exact .nil
  | cons a l ih => exact .cons (h a (by simp)) (ih (fun b hb => h b (by simp [hb])))

theorem slice_msg {α : Type} {enc : α → Str} (l : List α) (h : ∀ a ∈ l, IsMsg (enc a)) (hl : l.length < 2 ^ 32) :
    IsMsg (encArrayHeader (len32 l.length) ++ l.flatMap enc) := by
  rw [show len32 l.length = l.length from Nat.mod_eq_of_lt hl]
  exact .array (readArrayHeader_exact.of_full (arrayHeader_full hl)) (flatMap_msgs l h)

theorem data_decode {z : DData} (hz : DData.Small z) (z0 : DData) (rest : Str) : ∃ z', DData.decode z0 (z.encode ++ rest) = .ok z' rest ∧ DData.Same z' z := by
  obtain ⟨h4, e4⟩ := decodeSlice_full (zero := {}) (dec := fun a => decodeMsg a DLineData.field) (enc := DLineData.encode) z.lineData.vis
    (fun a ha z0 rest => (lineData_exact z0 _ a rest).2 ⟨_, lineData_is (hz.lineData.2 a ha) z0, rfl⟩) hz.lineData.1 z0.lineData rest
  obtain ⟨h3, e3⟩ := decodeSlice_full (zero := {}) (dec := fun a => decodeMsg a DLine.field) (enc := DLine.encode) z.lines.vis
    (fun a ha z0 rest => (line_exact z0 _ a rest).2 ⟨_, line_is (hz.lines.2 a ha) z0, rfl⟩) hz.lines.1 z0.lines
    ([0xa2, 0x6c, 0x64] ++ (encArrayHeader (len32 z.lineData.vis.length) ++ z.lineData.vis.flatMap DLineData.encode ++ rest))
  obtain ⟨h2, e2⟩ := decodeSlice_full (zero := {}) (dec := fun a => decodeMsg a DBlame.field) (enc := DBlame.encode) z.blames.vis
    (fun a ha z0 rest => (blame_exact z0 _ a rest).2 ⟨_, blame_is (hz.blames.2 a ha) z0, rfl⟩) hz.blames.1 z0.blames
    ([0xa1, 0x6c] ++ (encArrayHeader (len32 z.lines.vis.length) ++ z.lines.vis.flatMap DLine.encode ++
      ([0xa2, 0x6c, 0x64] ++ (encArrayHeader (len32 z.lineData.vis.length) ++ z.lineData.vis.flatMap DLineData.encode ++ rest))))
  obtain ⟨h1, e1⟩ := decodeSlice_full (zero := {}) (dec := fun a => decodeMsg a DRow.field) (enc := DRow.encode) z.data.vis
    (fun a ha z0 rest => (row_exact z0 _ a rest).2 ⟨_, row_is (hz.data.2 a ha) z0, rfl⟩) hz.data.1 z0.data
    ([0xa2, 0x62, 0x6c] ++ (encArrayHeader (len32 z.blames.vis.length) ++ z.blames.vis.flatMap DBlame.encode ++
      ([0xa1, 0x6c] ++ (encArrayHeader (len32 z.lines.vis.length) ++ z.lines.vis.flatMap DLine.encode ++
        ([0xa2, 0x6c, 0x64] ++ (encArrayHeader (len32 z.lineData.vis.length) ++ z.lineData.vis.flatMap DLineData.encode ++ rest))))))
  refine ⟨⟨⟨_, h1⟩, ⟨_, h2⟩, ⟨_, h3⟩, ⟨_, h4⟩⟩, ?_, rfl, rfl, rfl, rfl⟩
  have k1 := (key_reads b!"data" (kb := [0xa4, 0x64, 0x61, 0x74, 0x61]) rfl (by simp) (by simp)).full
  have k2 := (key_reads b!"bl" (kb := [0xa2, 0x62, 0x6c]) rfl (by simp) (by simp)).full
  have k3 := (key_reads b!"l" (kb := [0xa1, 0x6c]) rfl (by simp) (by simp)).full
  have k4 := (key_reads b!"ld" (kb := [0xa2, 0x6c, 0x64]) rfl (by simp) (by simp)).full
  have hd : z.encode ++ rest = UInt8.ofNat (0x80 + 4) :: ([0xa4, 0x64, 0x61, 0x74, 0x61] ++ (encArrayHeader (len32 z.data.vis.length) ++ z.data.vis.flatMap DRow.encode ++
      ([0xa2, 0x62, 0x6c] ++ (encArrayHeader (len32 z.blames.vis.length) ++ z.blames.vis.flatMap DBlame.encode ++
      ([0xa1, 0x6c] ++ (encArrayHeader (len32 z.lines.vis.length) ++ z.lines.vis.flatMap DLine.encode ++
        ([0xa2, 0x6c, 0x64] ++ (encArrayHeader (len32 z.lineData.vis.length) ++ z.lineData.vis.flatMap DLineData.encode ++ rest)))))))) := by
    simp [DData.encode]
  rw [hd]
  unfold DData.decode decodeMsg
  rw [mapHeader_full (by omega)]
  simp only [Dec.bind]
  rw [decodeFields, k1]
  simp only [Dec.bind]
  rw [show ∀ z bs, DData.field z b!"data" bs = Dec.ctx ((decodeSlice {} (fun a => decodeMsg a DRow.field) z.data bs).bind (fun x r => .ok { z with data := x } r)) from fun _ _ => rfl, e1]
  simp only [Dec.bind, Dec.ctx]
  rw [decodeFields, k2]
  simp only [Dec.bind]
  rw [show ∀ z bs, DData.field z b!"bl" bs = Dec.ctx ((decodeSlice {} (fun a => decodeMsg a DBlame.field) z.blames bs).bind (fun x r => .ok { z with blames := x } r)) from fun _ _ => rfl, e2]
  simp only [Dec.bind, Dec.ctx]
  rw [decodeFields, k3]
  simp only [Dec.bind]
  rw [show ∀ z bs, DData.field z b!"l" bs = Dec.ctx ((decodeSlice {} (fun a => decodeMsg a DLine.field) z.lines bs).bind (fun x r => .ok { z with lines := x } r)) from fun _ _ => rfl, e3]
  simp only [Dec.bind, Dec.ctx]
  rw [decodeFields, k4]
  simp only [Dec.bind]
  rw [show ∀ z bs, DData.field z b!"ld" bs = Dec.ctx ((decodeSlice {} (fun a => decodeMsg a DLineData.field) z.lineData bs).bind (fun x r => .ok { z with lineData := x } r)) from fun _ _ => rfl, e4]
  simp only [Dec.bind, Dec.ctx]
  rfl

theorem decodeSlice_of {α : Type} {zero : α} {f g : α → Str → Dec α} (h : ∀ z bs z' r, f z bs = .ok z' r → g z bs = .ok z' r) {b b' : Buf α} {bs r : Str}
    (hs : decodeSlice zero f b bs = .ok b' r) : decodeSlice zero g b bs = .ok b' r := by
  have key : ∀ st bs l r, decodeInto f st bs = .ok l r → decodeInto g st bs = .ok l r := by
    intro st
    induction st with
    | nil => intro bs l r h; exact h
    | cons z st ih =>
      intro bs l r hh
      rw [decodeInto] at hh ⊢
      cases hf : f z bs with
      | eof => rw [hf] at hh; cases hh
      | bad => rw [hf] at hh; cases hh
      | ok a r1 =>
        rw [hf] at hh
        rw [h _ _ _ _ hf]
        simp only [Dec.bind] at hh ⊢
        cases hd : decodeInto f st r1 with
        | eof => rw [hd] at hh; cases hh
        | bad => rw [hd] at hh; cases hh
        | ok l' r' => rw [hd] at hh; rw [ih _ _ _ hd]; exact hh
  unfold decodeSlice at hs ⊢
  cases ha : readArrayHeader bs with
  | eof => rw [ha] at hs; cases hs
  | bad => rw [ha] at hs; cases hs
  | ok n r1 =>
    rw [ha] at hs
    simp only [Dec.bind] at hs ⊢
    cases hd : decodeInto f (b.resize zero n).vis r1 with
    | eof => rw [hd] at hs; cases hs
    | bad => rw [hd] at hs; cases hs
    | ok l r' => rw [hd] at hs; rw [key _ _ _ _ hd]; exact hs

theorem ctx_bind_of {α β : Type} {x y : Dec α} {f : α → β} {b : β} {r : Str} (h : ∀ a r, x = .ok a r → y = .ok a r)
    (hx : Dec.ctx (x.bind (fun a r => .ok (f a) r)) = .ok b r) : Dec.ctx (y.bind (fun a r => .ok (f a) r)) = .ok b r := by
  cases x with
  | eof => cases hx
  | bad => cases hx
  | ok a r1 => rw [h a r1 rfl]; exact hx

theorem data_field_of (z : DData) (k bs : Str) (z' : DData) (r : Str) (h : z.field k bs = .ok z' r) : z.fieldU k bs = .ok z' r := by
  unfold DData.field at h
  unfold DData.fieldU
  rcases ite_elim h with ⟨c, h⟩ | ⟨c, h⟩
  · rw [if_pos c]; exact ctx_bind_of (fun a r h => decodeSlice_of (fun _ _ _ _ h => unmarshal_of_decode (fun _ _ _ _ _ h => h) h) h) h
  rw [if_neg c]
  rcases ite_elim h with ⟨c, h⟩ | ⟨c, h⟩
  · rw [if_pos c]; exact ctx_bind_of (fun a r h => decodeSlice_of (fun _ _ _ _ h => unmarshal_of_decode (fun _ _ _ _ _ h => h) h) h) h
  rw [if_neg c]
  rcases ite_elim h with ⟨c, h⟩ | ⟨c, h⟩
  · rw [if_pos c]; exact ctx_bind_of (fun a r h => decodeSlice_of (fun _ _ _ _ h => unmarshal_of_decode (fun _ _ _ _ _ h => h) h) h) h
  rw [if_neg c]
  rcases ite_elim h with ⟨c, h⟩ | ⟨c, h⟩
  · rw [if_pos c]; exact ctx_bind_of (fun a r h => decodeSlice_of (fun _ _ _ _ h => unmarshal_of_decode (fun _ _ _ _ _ h => h) h) h) h
  rw [if_neg c]
  exact h

theorem foldl_size {α : Type} {enc : α → Str} {f : α → Nat} (h : ∀ a, (enc a).length ≤ f a) (l : List α) (s : Nat) :
    s + (l.flatMap enc).length ≤ l.foldl (fun s a => s + f a) s := by
  induction l generalizing s with
  | nil => simp
  | cons a l ih =>
    have h1 := ih (s + f a)
    have h2 := h a
    rw [List.flatMap_cons, List.length_append, List.foldl_cons]
    omega

theorem data_msgsize (z : DData) : z.encode.length ≤ z.msgsize := by
  unfold DData.msgsize
  dsimp only
  have e1 := encArrayHeader_length (len32 z.data.vis.length)
  have e2 := encArrayHeader_length (len32 z.blames.vis.length)
  have e3 := encArrayHeader_length (len32 z.lines.vis.length)
  have e4 := encArrayHeader_length (len32 z.lineData.vis.length)
  have h1 := foldl_size row_msgsize z.data.vis (1 + 5 + 5)
  have h2 := foldl_size blame_msgsize z.blames.vis (z.data.vis.foldl (fun s a => s + a.msgsize) (1 + 5 + 5) + (3 + 5))
  have h3 := foldl_size line_msgsize z.lines.vis (z.blames.vis.foldl (fun s a => s + a.msgsize) (z.data.vis.foldl (fun s a => s + a.msgsize) (1 + 5 + 5) + (3 + 5)) + (2 + 5))
  have h4 := foldl_size lineData_msgsize z.lineData.vis
    (z.lines.vis.foldl (fun s a => s + a.msgsize) (z.blames.vis.foldl (fun s a => s + a.msgsize) (z.data.vis.foldl (fun s a => s + a.msgsize) (1 + 5 + 5) + (3 + 5)) + (2 + 5)) + (3 + 5))
  refine Nat.le_trans ?_ h4
  simp only [DData.encode, List.length_append, List.length_cons, List.length_nil]
  omega

theorem data_marshal (z : DData) (b : Str) : z.marshal b = b ++ z.encode := by
  unfold DData.marshal
  dsimp only
  rw [foldl_append row_marshal, foldl_append blame_marshal, foldl_append line_marshal, foldl_append lineData_marshal]
  simp [DData.encode]

theorem data_msg {z : DData} (hz : DData.Small z) : IsMsg z.encode := by
  have m1 := slice_msg (enc := DRow.encode) z.data.vis (fun a ha => IsMap.msg (fun _ _ _ h => h.msgs) (row_is (hz.data.2 a ha) {})) hz.data.1
  have m2 := slice_msg (enc := DBlame.encode) z.blames.vis (fun a ha => IsMap.msg (fun _ _ _ h => h.msgs) (blame_is (hz.blames.2 a ha) {})) hz.blames.1
  have m3 := slice_msg (enc := DLine.encode) z.lines.vis (fun a ha => IsMap.msg (fun _ _ _ h => h.msgs) (line_is (hz.lines.2 a ha) {})) hz.lines.1
  have m4 := slice_msg (enc := DLineData.encode) z.lineData.vis (fun a ha => IsMap.msg (fun _ _ _ h => h.msgs) (lineData_is (hz.lineData.2 a ha) {})) hz.lineData.1
  have p1 := pair_msgs (key_is b!"data" (kb := [0xa4, 0x64, 0x61, 0x74, 0x61]) rfl (by simp) (by simp)) m1
  have p2 := pair_msgs (key_is b!"bl" (kb := [0xa2, 0x62, 0x6c]) rfl (by simp) (by simp)) m2
  have p3 := pair_msgs (key_is b!"l" (kb := [0xa1, 0x6c]) rfl (by simp) (by simp)) m3
  have p4 := pair_msgs (key_is b!"ld" (kb := [0xa2, 0x6c, 0x64]) rfl (by simp) (by simp)) m4
  have all := isMsgs_append p1 (isMsgs_append p2 (isMsgs_append p3 p4))
  have := IsMsg.map (n := 4) (h := [0x84]) (.inl ⟨by omega, rfl⟩) all
  simpa [DData.encode] using this

/-- C67 for `Data`, the type that holds all four lists. -/
theorem C67_data : Codec DData.encode DData.marshal DData.msgsize DData.decode DData.unmarshal DData.Small DData.Same where
  marshal := data_marshal
  size := data_msgsize
  skipped z hz rest := skip_of (data_msg hz) rest
  decoded z hz z0 rest := data_decode hz z0 rest
  unmarshaled z hz z0 rest := by
    obtain ⟨z', h1, h2⟩ := data_decode hz z0 rest
    exact ⟨z', unmarshal_of_decode data_field_of h1, h2⟩

/-- An object with old content is overwritten, and what it held beyond its end does not come back. -/
example : DData.decode { data := ⟨[⟨b!"old", b!"old", 9⟩], [⟨b!"older", b!"o", 8⟩]⟩ } ((DData.mk ⟨[⟨b!"c", b!"p", 1⟩, ⟨[], b!"q", 0⟩], []⟩ {} {} {}).encode ++ [7]) =
    .ok { data := ⟨[⟨b!"c", b!"p", 1⟩, ⟨[], b!"q", 0⟩], []⟩ } [7] := by decide +kernel

example : DData.Small (DData.mk ⟨[⟨b!"c", b!"p", 1⟩, ⟨[], b!"q", 0⟩], []⟩ ⟨[⟨1, b!"c", [2, 3], false⟩], []⟩ {} {}) := by
  refine ⟨⟨by decide, ?_⟩, ⟨by decide, ?_⟩, ⟨by decide, by simp⟩, ⟨by decide, by simp⟩⟩
  · intro a ha
    simp only [List.mem_cons, List.not_mem_nil, or_false] at ha
    rcases ha with rfl | rfl <;> (constructor <;> decide)
  · intro a ha
    simp only [List.mem_cons, List.not_mem_nil, or_false] at ha
    subst ha
    constructor <;> decide

/-- A document that leaves a field out keeps the old content of the field: only what is written is overwritten. -/
example : decodeMsg ⟨b!"old", b!"old", 9⟩ DRow.field [0x81, 0xa1, 0x63, 0xa1, 0x78] = .ok ⟨b!"x", b!"old", 9⟩ [] := by decide +kernel

theorem decodeInto_empty (l : List DRow) (rest : Str) : decodeInto (fun a => decodeMsg a DRow.field) l (List.replicate l.length 0x80 ++ rest) = .ok l rest := by
  induction l with
  | nil => rfl
  | cons a l ih =>
    rw [List.length_cons, List.replicate_succ, List.cons_append, decodeInto]
    have : decodeMsg a DRow.field (0x80 :: (List.replicate l.length 0x80 ++ rest)) = .ok a (List.replicate l.length 0x80 ++ rest) := by
      unfold decodeMsg
      rw [show (0x80 : UInt8) = UInt8.ofNat (0x80 + 0) from rfl, mapHeader_full (by omega)]
      rfl
    rw [this]
    simp only [Dec.bind]
    rw [ih]

/-- **Finding.** Records without fields (which `DecodeMsg` accepts) do not become empty records: if the array behind the slice is long enough, the elements that it held before, those
beyond the end of the slice included, come back. -/
theorem C67_stale_elements (z : DData) (n : Nat) (hn : n < 2 ^ 32) (rest : Str) :
    ∃ z', DData.decode z (0x81 :: 0xa4 :: 0x64 :: 0x61 :: 0x74 :: 0x61 :: (encArrayHeader n ++ (List.replicate n 0x80 ++ rest))) = .ok z' rest ∧
      z'.data.vis = (if n ≤ z.data.vis.length + z.data.hid.length then (z.data.vis ++ z.data.hid).take n else List.replicate n {}) := by
  have k1 := (key_reads b!"data" (kb := [0xa4, 0x64, 0x61, 0x74, 0x61]) rfl (by simp) (by simp)).full
  have hlen : (z.data.resize {} n).vis.length = n := resize_length _ _ _
  have e1 : decodeSlice {} (fun a => decodeMsg a DRow.field) z.data (encArrayHeader n ++ (List.replicate n 0x80 ++ rest)) = .ok (z.data.resize {} n) rest := by
    unfold decodeSlice
    rw [arrayHeader_full hn]
    simp only [Dec.bind]
    have := decodeInto_empty (z.data.resize {} n).vis rest
    rw [hlen] at this
    rw [this]
  refine ⟨{ z with data := z.data.resize {} n }, ?_, ?_⟩
  · unfold DData.decode decodeMsg
    rw [show (0x81 : UInt8) = UInt8.ofNat (0x80 + 1) from rfl, mapHeader_full (by omega)]
    simp only [Dec.bind]
    rw [show (0xa4 :: 0x64 :: 0x61 :: 0x74 :: 0x61 :: (encArrayHeader n ++ (List.replicate n 0x80 ++ rest)) : Str) =
      [0xa4, 0x64, 0x61, 0x74, 0x61] ++ (encArrayHeader n ++ (List.replicate n 0x80 ++ rest)) from rfl, decodeFields, k1]
    simp only [Dec.bind]
    rw [show ∀ z bs, DData.field z b!"data" bs = Dec.ctx ((decodeSlice {} (fun a => decodeMsg a DRow.field) z.data bs).bind (fun x r => .ok { z with data := x } r)) from fun _ _ => rfl, e1]
    rfl
  · show (z.data.resize {} n).vis = _
    unfold Buf.resize
    rw [List.length_append]
    split <;> rfl

example : DData.decode { data := ⟨[⟨b!"old", b!"p", 9⟩], [⟨b!"older", b!"q", 8⟩]⟩ } [0x81, 0xa4, 0x64, 0x61, 0x74, 0x61, 0x92, 0x80, 0x80] =
    .ok { data := ⟨[⟨b!"old", b!"p", 9⟩, ⟨b!"older", b!"q", 8⟩], []⟩ } [] := by decide +kernel

end Ripsrc
