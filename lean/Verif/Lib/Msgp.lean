import Verif.Model.Msgp
/-!
# Lemmas on the record encoding
-/
namespace Ripsrc

/-! ## Big-endian numbers -/

theorem beBytes_length (k n : Nat) : (beBytes k n).length = k := by
  induction k with
  | zero => rfl
  | succ k ih => simp [beBytes, ih]

theorem beVal_foldl (s : Str) (a : Nat) : s.foldl (fun a b => a * 256 + b.toNat) a = a * 256 ^ s.length + beVal s := by
  induction s generalizing a with
  | nil => simp [beVal]
  | cons b s ih =>
    simp only [beVal, List.foldl_cons, List.length_cons]
    rw [ih, ih (0 * 256 + b.toNat), Nat.pow_succ]
    simp only [Nat.zero_mul, Nat.zero_add, Nat.add_mul]
    rw [Nat.mul_comm (256 ^ s.length) 256, ← Nat.mul_assoc]
    omega

theorem beVal_cons (b : UInt8) (s : Str) : beVal (b :: s) = b.toNat * 256 ^ s.length + beVal s := by
  rw [beVal, List.foldl_cons, beVal_foldl]
  simp

theorem beVal_beBytes (k n : Nat) : beVal (beBytes k n) = n % 256 ^ k := by
  induction k with
  | zero => simp [beBytes, beVal, Nat.mod_one]
  | succ k ih =>
    rw [beBytes, beVal_cons, ih, beBytes_length, UInt8.toNat_ofNat']
    rw [Nat.pow_succ 256 k, Nat.mod_mul]
    rw [Nat.mul_comm (n / 256 ^ k % 2 ^ 8), Nat.add_comm]

/-! ## Readers -/

/-- More input does not change what was read. -/
structure Mono {α : Type} (rd : Str → Dec α) : Prop where
  ok : ∀ {s a r} (t), rd s = .ok a r → rd (s ++ t) = .ok a (r ++ t)
  bad : ∀ {s} (t), rd s = .bad → rd (s ++ t) = .bad

/-- `rd` reads exactly the bytes `enc` as `a`, and fails with `unexpected EOF` when some of them are missing. -/
structure Reads {α : Type} (rd : Str → Dec α) (enc : Str) (a : α) : Prop where
  full : ∀ rest, rd (enc ++ rest) = .ok a rest
  cut : ∀ s t, enc = s ++ t → t ≠ [] → rd s = .eof

theorem Mono.reads {α : Type} {rd : Str → Dec α} (hm : Mono rd) {enc : Str} {a : α} (h : ∀ rest, rd (enc ++ rest) = .ok a rest) :
    Reads rd enc a := by
  refine ⟨h, ?_⟩
  intro s t he ht
  have hf := h []
  rw [List.append_nil, he] at hf
  cases hs : rd s with
  | eof => rfl
  | bad => rw [hm.bad t hs] at hf; cases hf
  | ok b r =>
    rw [hm.ok t hs] at hf
    injection hf with h1 h2
    exact absurd (List.append_eq_nil_iff.1 h2).2 ht

theorem Mono.bind {α β : Type} {rd : Str → Dec α} {f : α → Str → Dec β} (h1 : Mono rd) (h2 : ∀ a, Mono (f a)) :
    Mono (fun bs => (rd bs).bind f) := by
  constructor
  · intro s a r t h
    simp only [Dec.bind] at h ⊢
    cases hs : rd s with
    | eof => rw [hs] at h; cases h
    | bad => rw [hs] at h; cases h
    | ok b r' =>
      rw [hs] at h
      rw [h1.ok t hs]
      exact (h2 b).ok t h
  · intro s t h
    simp only [Dec.bind] at h ⊢
    cases hs : rd s with
    | eof => rw [hs] at h; cases h
    | bad => rw [h1.bad t hs]
    | ok b r' =>
      rw [hs] at h
      rw [h1.ok t hs]
      exact (h2 b).bad t h

theorem Mono.ret {α : Type} (a : α) : Mono (fun bs => Dec.ok a bs) := by
  constructor
  · intro s b r t h
    injection h with h1 h2
    subst h1; subst h2; rfl
  · intro s t h; cases h

theorem Mono.fail {α : Type} : Mono (fun _ => (Dec.bad : Dec α)) := by
  constructor
  · intro s a r t h; cases h
  · intro s t h; rfl

theorem Mono.ite {α : Type} {c : Prop} [Decidable c] {f g : Str → Dec α} (hf : Mono f) (hg : Mono g) :
    Mono (fun bs => if c then f bs else g bs) := by
  by_cases h : c <;> simp [h, hf, hg]

theorem next_mono (k : Nat) : Mono (next k) := by
  constructor
  · intro s a r t h
    unfold next at h ⊢
    by_cases hl : s.length < k
    · simp [hl] at h
    · rw [if_neg hl] at h
      injection h with h1 h2
      have hl2 : ¬ (s ++ t).length < k := by rw [List.length_append]; omega
      rw [if_neg hl2, List.take_append_of_le_length (by omega), List.drop_append_of_le_length (by omega), h1, h2]
  · intro s t h
    unfold next at h
    split at h <;> cases h

theorem nextNum_mono (k : Nat) : Mono (nextNum k) := (next_mono (k + 1)).bind (fun _ => Mono.ret _)

/-- A reader that looks at the first byte. -/
theorem Mono.lead {α : Type} {rd : Str → Dec α} (h0 : rd [] = .eof) (h : ∀ b, Mono (fun rest => rd (b :: rest))) : Mono rd := by
  constructor
  · intro s a r t hs
    cases s with
    | nil => rw [h0] at hs; cases hs
    | cons b s => exact (h b).ok t hs
  · intro s t hs
    cases s with
    | nil => rw [h0] at hs; cases hs
    | cons b s => exact (h b).bad t hs

theorem Mono.tail {α : Type} {f : Str → Dec α} (h : Mono f) (b : UInt8) : Mono (fun rest => f (b :: rest)) :=
  ⟨fun t hs => h.ok t hs, fun t hs => h.bad t hs⟩

theorem readUint_mono : Mono readUint := by
  have hu : ∀ k, Mono (fun bs => (nextNum k bs).bind (fun n r => Dec.ok (UInt64.ofNat n) r)) := fun k =>
    (nextNum_mono k).bind (fun _ => Mono.ret _)
  have hs : ∀ k, Mono (fun bs => (nextNum k bs).bind (fun n r => if n < 256 ^ k / 2 then Dec.ok (UInt64.ofNat n) r else .bad)) := fun k =>
    (nextNum_mono k).bind (fun _ => (Mono.ret _).ite Mono.fail)
  refine Mono.lead rfl (fun b => ?_)
  exact (Mono.ret _).ite (((hu 1).tail b).ite (((hu 2).tail b).ite (((hu 4).tail b).ite (((hu 8).tail b).ite
    (((hs 1).tail b).ite (((hs 2).tail b).ite (((hs 4).tail b).ite (((hs 8).tail b).ite Mono.fail))))))))

theorem readStr_mono : Mono readStr := by
  have hn : ∀ k, Mono (fun bs => (nextNum k bs).bind next) := fun k => (nextNum_mono k).bind next_mono
  refine Mono.lead rfl (fun b => ?_)
  exact (next_mono _).ite (((hn 1).tail b).ite (((hn 2).tail b).ite (((hn 4).tail b).ite Mono.fail)))

theorem nextKey_mono (n : Nat) : Mono (nextKey n) := Mono.fail.ite (next_mono n)

theorem readKey_mono : Mono readKey := by
  have hn : ∀ k, Mono (fun bs => (nextNum k bs).bind nextKey) := fun k => (nextNum_mono k).bind nextKey_mono
  refine Mono.lead rfl (fun b => ?_)
  exact (nextKey_mono _).ite (((hn 1).tail b).ite (((hn 2).tail b).ite (((hn 4).tail b).ite Mono.fail)))

theorem readArrayHeader_mono : Mono readArrayHeader := by
  refine Mono.lead rfl (fun b => ?_)
  exact (Mono.ret _).ite (((nextNum_mono 2).tail b).ite (((nextNum_mono 4).tail b).ite Mono.fail))

theorem readMapHeader_mono : Mono readMapHeader := by
  refine Mono.lead rfl (fun b => ?_)
  exact (Mono.ret _).ite (((nextNum_mono 2).tail b).ite (((nextNum_mono 4).tail b).ite Mono.fail))

theorem readBool_mono : Mono readBool := by
  refine Mono.lead rfl (fun b => ?_)
  exact (Mono.ret _).ite ((Mono.ret _).ite Mono.fail)

theorem readBin_mono : Mono readBin := by
  have hn : ∀ k, Mono (fun bs => (nextNum k bs).bind next) := fun k => (nextNum_mono k).bind next_mono
  have key : ∀ (a b : UInt8) (s : Str), readBin (a :: b :: s) =
      (if a = 0xc4 then (nextNum 1 (a :: b :: s)).bind next else if a = 0xc5 then (nextNum 2 (a :: b :: s)).bind next
        else if a = 0xc6 then (nextNum 4 (a :: b :: s)).bind next else .bad) := by
    intro a b s
    have h2 : ¬ (a :: b :: s).length < 2 := by simp
    have h : next 2 (a :: b :: s) = .ok [a, b] s := by rw [next, if_neg h2]; rfl
    simp [readBin, h, Dec.bind]
  constructor
  · intro s a r t h
    match s, h with
    | [], h => cases h
    | [x], h => simp [readBin, next, Dec.bind] at h
    | x :: y :: s, h =>
      rw [List.cons_append, List.cons_append, key]
      rw [key] at h
      split at h
      · rename_i hx; rw [if_pos hx]; exact (hn _).ok t h
      split at h
      · rename_i h0 hx; rw [if_neg h0, if_pos hx]; exact (hn _).ok t h
      split at h
      · rename_i h0 h1 hx; rw [if_neg h0, if_neg h1, if_pos hx]; exact (hn _).ok t h
      cases h
  · intro s t h
    match s, h with
    | [], h => cases h
    | [x], h => simp [readBin, next, Dec.bind] at h
    | x :: y :: s, h =>
      rw [List.cons_append, List.cons_append, key]
      rw [key] at h
      split at h
      · rename_i hx; rw [if_pos hx]; exact (hn _).bad t h
      split at h
      · rename_i h0 hx; rw [if_neg h0, if_pos hx]; exact (hn _).bad t h
      split at h
      · rename_i h0 h1 hx; rw [if_neg h0, if_neg h1, if_pos hx]; exact (hn _).bad t h
      rename_i h0 h1 h2
      rw [if_neg h0, if_neg h1, if_neg h2]

theorem readMany_mono {α : Type} {rd : Str → Dec α} (h : Mono rd) (n : Nat) : Mono (readMany rd n) := by
  induction n with
  | zero => exact Mono.ret _
  | succ n ih => exact h.bind (fun a => ih.bind (fun l => Mono.ret _))

/-! ## Values -/

theorem next_append {k : Nat} {p : Str} (h : p.length = k) (rest : Str) : next k (p ++ rest) = .ok p rest := by
  subst h
  simp [next]

theorem nextNum_beBytes {k n : Nat} (lead : UInt8) (h : n < 256 ^ k) (rest : Str) :
    nextNum k (lead :: (beBytes k n ++ rest)) = .ok n rest := by
  have : next (k + 1) ((lead :: beBytes k n) ++ rest) = .ok (lead :: beBytes k n) rest :=
    next_append (by simp [beBytes_length]) rest
  rw [nextNum, ← List.cons_append, this]
  simp only [Dec.bind, List.drop_succ_cons, List.drop_zero]
  rw [beVal_beBytes, Nat.mod_eq_of_lt h]

theorem u8_toNat {n : Nat} (h : n < 256) : (UInt8.ofNat n).toNat = n := by
  rw [UInt8.toNat_ofNat']
  exact Nat.mod_eq_of_lt h

theorem uint_reads (u : UInt64) : Reads readUint (encUint u) u := by
  refine readUint_mono.reads ?_
  intro rest
  have hu : UInt64.ofNat u.toNat = u := by simp
  have hlt : u.toNat < 2 ^ 64 := u.toNat_lt
  simp only [encUint]
  split
  · rename_i h
    have h1 : UInt8.ofNat u.toNat < 0x80 := by
      rw [UInt8.lt_iff_toNat_lt, u8_toNat (by omega)]
      show u.toNat < 128
      omega
    simp only [List.cons_append, List.nil_append, readUint]
    rw [if_pos h1, u8_toNat (by omega), hu]
  split
  · rename_i h
    show readUint (0xcc :: (beBytes 1 u.toNat ++ rest)) = _
    simp [readUint, nextNum_beBytes (k := 1) _ (show u.toNat < 256 ^ 1 by omega), Dec.bind]
  split
  · rename_i h
    show readUint (0xcd :: (beBytes 2 u.toNat ++ rest)) = _
    simp [readUint, nextNum_beBytes (k := 2) _ (show u.toNat < 256 ^ 2 by omega), Dec.bind]
  split
  · rename_i h
    show readUint (0xce :: (beBytes 4 u.toNat ++ rest)) = _
    simp [readUint, nextNum_beBytes (k := 4) _ (show u.toNat < 256 ^ 4 by omega), Dec.bind]
  · show readUint (0xcf :: (beBytes 8 u.toNat ++ rest)) = _
    simp [readUint, nextNum_beBytes (k := 8) _ (show u.toNat < 256 ^ 8 by omega), Dec.bind]

theorem str_reads {s : Str} (h : s.length < 2 ^ 32) : Reads readStr (encStr s) s := by
  refine readStr_mono.reads ?_
  intro rest
  have hl : len32 s.length = s.length := Nat.mod_eq_of_lt h
  simp only [encStr, hl]
  split
  · rename_i h
    have h1 : (UInt8.ofNat (0xa0 + s.length)).toNat = 0xa0 + s.length := u8_toNat (by omega)
    have h2 : 0xa0 ≤ UInt8.ofNat (0xa0 + s.length) ∧ UInt8.ofNat (0xa0 + s.length) ≤ 0xbf := by
      rw [UInt8.le_iff_toNat_le, UInt8.le_iff_toNat_le, h1]
      show 160 ≤ _ ∧ _ ≤ 191
      omega
    simp only [List.cons_append, List.nil_append, readStr]
    rw [if_pos h2, h1]
    exact next_append (by omega) rest
  split
  · rename_i h
    show readStr (0xd9 :: (beBytes 1 s.length ++ s ++ rest)) = _
    rw [List.append_assoc]
    simp [readStr, nextNum_beBytes (k := 1) _ (show s.length < 256 ^ 1 by omega), Dec.bind, next_append]
  split
  · rename_i h
    show readStr (0xda :: (beBytes 2 s.length ++ s ++ rest)) = _
    rw [List.append_assoc]
    simp [readStr, nextNum_beBytes (k := 2) _ (show s.length < 256 ^ 2 by omega), Dec.bind, next_append]
  · show readStr (0xdb :: (beBytes 4 s.length ++ s ++ rest)) = _
    rw [List.append_assoc]
    simp [readStr, nextNum_beBytes (k := 4) _ (show s.length < 256 ^ 4 by omega), Dec.bind, next_append]

theorem readBin_lead (lead : UInt8) {k : Nat} (hk : lead = 0xc4 ∧ k = 1 ∨ lead = 0xc5 ∧ k = 2 ∨ lead = 0xc6 ∧ k = 4) {s : Str}
    (h : s.length < 256 ^ k) (rest : Str) : readBin (lead :: (beBytes k s.length ++ (s ++ rest))) = .ok s rest := by
  have hn := nextNum_beBytes (k := k) lead h (s ++ rest)
  have hlen : ¬ (lead :: (beBytes k s.length ++ (s ++ rest))).length < 2 := by
    simp only [List.length_cons, List.length_append, beBytes_length]
    omega
  unfold readBin next
  rw [if_neg hlen]
  simp only [Dec.bind]
  rcases hk with ⟨rfl, rfl⟩ | ⟨rfl, rfl⟩ | ⟨rfl, rfl⟩ <;> simp [hn]

theorem bin_reads {s : Str} (h : s.length < 2 ^ 32) : Reads readBin (encBin s) s := by
  refine readBin_mono.reads ?_
  intro rest
  have hl : len32 s.length = s.length := Nat.mod_eq_of_lt h
  simp only [encBin, hl]
  split
  · show readBin (0xc4 :: (beBytes 1 s.length ++ s ++ rest)) = _
    rw [List.append_assoc]
    exact readBin_lead _ (by simp) (by omega) rest
  split
  · show readBin (0xc5 :: (beBytes 2 s.length ++ s ++ rest)) = _
    rw [List.append_assoc]
    exact readBin_lead _ (by simp) (by omega) rest
  · show readBin (0xc6 :: (beBytes 4 s.length ++ s ++ rest)) = _
    rw [List.append_assoc]
    exact readBin_lead _ (by simp) (by omega) rest

theorem bool_reads (b : Bool) : Reads readBool (encBool b) b := by
  refine readBool_mono.reads ?_
  intro rest
  cases b <;> simp [encBool, readBool]

theorem arrayHeader_full {n : Nat} (h : n < 2 ^ 32) (rest : Str) : readArrayHeader (encArrayHeader n ++ rest) = .ok n rest := by
  simp only [encArrayHeader]
  split
  · have h1 : (UInt8.ofNat (0x90 + n)).toNat = 0x90 + n := u8_toNat (by omega)
    have h2 : 0x90 ≤ UInt8.ofNat (0x90 + n) ∧ UInt8.ofNat (0x90 + n) ≤ 0x9f := by
      rw [UInt8.le_iff_toNat_le, UInt8.le_iff_toNat_le, h1]
      show 144 ≤ _ ∧ _ ≤ 159
      omega
    simp only [List.cons_append, List.nil_append, readArrayHeader]
    rw [if_pos h2, h1, Nat.add_sub_cancel_left]
  split
  · show readArrayHeader (0xdc :: (beBytes 2 n ++ rest)) = _
    simp [readArrayHeader, nextNum_beBytes (k := 2) _ (show n < 256 ^ 2 by omega)]
  · show readArrayHeader (0xdd :: (beBytes 4 n ++ rest)) = _
    simp [readArrayHeader, nextNum_beBytes (k := 4) _ (show n < 256 ^ 4 by omega)]

theorem uints_full (l : List UInt64) (rest : Str) : readMany readUint l.length (l.flatMap encUint ++ rest) = .ok l rest := by
  induction l generalizing rest with
  | nil => rfl
  | cons u l ih =>
    simp only [List.length_cons, readMany, List.flatMap_cons, List.append_assoc]
    rw [(uint_reads u).full]
    simp only [Dec.bind]
    rw [ih]

theorem array_reads {l : List UInt64} (h : l.length < 2 ^ 32) :
    Reads (fun bs => (readArrayHeader bs).bind (fun n r => readMany readUint n r)) (encArrayHeader (len32 l.length) ++ l.flatMap encUint) l := by
  refine (readArrayHeader_mono.bind (fun n => readMany_mono readUint_mono n)).reads ?_
  intro rest
  have hl : len32 l.length = l.length := Nat.mod_eq_of_lt h
  simp only [hl, List.append_assoc]
  rw [arrayHeader_full h]
  exact uints_full l rest

theorem Reads.map {α β : Type} {rd : Str → Dec α} {enc : Str} {a : α} (h : Reads rd enc a) (f : α → β) :
    Reads (fun bs => (rd bs).bind (fun x r => .ok (f x) r)) enc (f a) :=
  ⟨fun rest => by simp only [h.full, Dec.bind], fun s t he ht => by simp only [h.cut s t he ht, Dec.bind]⟩

/-! ## Records -/

/-- A field as written: the bytes of its key, the bytes of its value, the reader's update. -/
structure Field (σ : Type) where
  key : Str
  val : Str
  upd : σ → σ

/-- The bytes of fields. -/
def fieldBytes {σ : Type} (fs : List (Field σ)) : Str := fs.flatMap (fun f => f.key ++ f.val)

/-- The reader understands the field. -/
structure FieldOk {σ : Type} (field : σ → Str → Str → Dec σ) (f : Field σ) : Prop where
  key : ∃ k, Reads readKey f.key k ∧ ∀ s, ∃ rd, (∀ bs, field s k bs = (rd bs).ctx) ∧ Reads rd f.val (f.upd s)

/-- Where a cut falls: `true` for outside of any value. `fs` are the fields, `n` the number of bytes kept. -/
def cutClean {σ : Type} : List (Field σ) → Nat → Bool
  | [], _ => true
  | f :: fs, n =>
    if n < f.key.length then true
    else if n < f.key.length + f.val.length then false
    else cutClean fs (n - (f.key.length + f.val.length))

/-- The outcome of decoding a record that was cut. -/
def cutOutcome {σ : Type} (clean : Bool) : Dec σ := if clean then .eof else .bad

theorem decodeFields_full {σ : Type} {field : σ → Str → Str → Dec σ} (fs : List (Field σ)) (h : ∀ f ∈ fs, FieldOk field f) (s : σ) (rest : Str) :
    decodeFields field fs.length s (fieldBytes fs ++ rest) = .ok (fs.foldl (fun s f => f.upd s) s) rest := by
  induction fs generalizing s with
  | nil => rfl
  | cons f fs ih =>
    obtain ⟨k, hk, hv⟩ := (h f (by simp)).key
    simp only [List.length_cons, decodeFields, fieldBytes, List.flatMap_cons, List.append_assoc, List.foldl_cons]
    rw [hk.full]
    obtain ⟨rd, hrd, hr⟩ := hv s
    simp only [Dec.bind, hrd, hr.full, Dec.ctx]
    exact ih (fun g hg => h g (by simp [hg])) (f.upd s)

theorem decodeFields_cut {σ : Type} {field : σ → Str → Str → Dec σ} (fs : List (Field σ)) (h : ∀ f ∈ fs, FieldOk field f) (s : σ) (a b : Str)
    (he : fieldBytes fs = a ++ b) (hb : b ≠ []) :
    decodeFields field fs.length s a = cutOutcome (cutClean fs a.length) := by
  induction fs generalizing s a with
  | nil =>
    have := List.append_eq_nil_iff.1 he.symm
    exact absurd this.2 hb
  | cons f fs ih =>
    obtain ⟨k, hk, hv⟩ := (h f (by simp)).key
    simp only [List.length_cons, decodeFields, cutClean]
    simp only [fieldBytes, List.flatMap_cons, List.append_assoc] at he
    by_cases h1 : a.length < f.key.length
    · rw [if_pos h1]
      have : f.key = a ++ f.key.drop a.length := by
        have := congrArg (List.take a.length) he
        rw [List.take_append_of_le_length (by omega), List.take_left'  rfl] at this
        conv => lhs; rw [← List.take_append_drop a.length f.key, this]
      rw [hk.cut a _ this (by intro hh; have := congrArg List.length hh; simp at this; omega)]
      rfl
    · rw [if_neg h1]
      obtain ⟨a1, ha⟩ : ∃ a1, a = f.key ++ a1 := by
        refine ⟨a.drop f.key.length, ?_⟩
        have := congrArg (List.take f.key.length) he
        rw [List.take_left' rfl, List.take_append_of_le_length (by omega)] at this
        rw [← List.take_append_drop f.key.length a, ← this]
        simp
      subst ha
      rw [List.append_assoc] at he
      have he2 := List.append_cancel_left he
      simp only [List.length_append] at h1 ⊢
      rw [hk.full]
      simp only [Dec.bind]
      by_cases h2 : a1.length < f.val.length
      · rw [if_pos (by omega)]
        have : f.val = a1 ++ f.val.drop a1.length := by
          have := congrArg (List.take a1.length) he2
          rw [List.take_append_of_le_length (by omega), List.take_left'  rfl] at this
          conv => lhs; rw [← List.take_append_drop a1.length f.val, this]
        obtain ⟨rd, hrd, hr⟩ := hv s
        rw [hrd, hr.cut a1 _ this (by intro hh; have := congrArg List.length hh; simp at this; omega)]
        rfl
      · rw [if_neg (by omega)]
        obtain ⟨a2, ha⟩ : ∃ a2, a1 = f.val ++ a2 := by
          refine ⟨a1.drop f.val.length, ?_⟩
          have := congrArg (List.take f.val.length) he2
          rw [List.take_left' rfl, List.take_append_of_le_length (by omega)] at this
          rw [← List.take_append_drop f.val.length a1, ← this]
          simp
        subst ha
        rw [List.append_assoc] at he2
        have he3 := List.append_cancel_left he2
        obtain ⟨rd, hrd, hr⟩ := hv s
        rw [hrd, hr.full]
        simp only [Dec.ctx]
        have := ih (fun g hg => h g (by simp [hg])) (f.upd s) a2 he3
        simp only [this, List.length_append]
        have e : f.key.length + (f.val.length + a2.length) - (f.key.length + f.val.length) = a2.length := by omega
        rw [e]

/-- What is known of a record type: its bytes are a header byte and fields. -/
structure RecordOk {σ : Type} (init : σ) (field : σ → Str → Str → Dec σ) (enc : Str) (a : σ) (fs : List (Field σ)) : Prop where
  count : fs.length < 16
  fields : ∀ f ∈ fs, FieldOk field f
  bytes : enc = UInt8.ofNat (0x80 + fs.length) :: fieldBytes fs
  value : fs.foldl (fun s f => f.upd s) init = a

theorem mapHeader_full {n : Nat} (h : n < 16) (rest : Str) : readMapHeader (UInt8.ofNat (0x80 + n) :: rest) = .ok n rest := by
  have h1 : (UInt8.ofNat (0x80 + n)).toNat = 0x80 + n := u8_toNat (by omega)
  have h2 : 0x80 ≤ UInt8.ofNat (0x80 + n) ∧ UInt8.ofNat (0x80 + n) ≤ 0x8f := by
    rw [UInt8.le_iff_toNat_le, UInt8.le_iff_toNat_le, h1]
    show 128 ≤ _ ∧ _ ≤ 143
    omega
  simp only [readMapHeader]
  rw [if_pos h2, h1, Nat.add_sub_cancel_left]

theorem record_full {σ : Type} {init : σ} {field : σ → Str → Str → Dec σ} {enc : Str} {a : σ} {fs : List (Field σ)}
    (h : RecordOk init field enc a fs) (rest : Str) : decodeMsg init field (enc ++ rest) = .ok a rest := by
  rw [h.bytes, decodeMsg, List.cons_append, mapHeader_full h.count]
  simp only [Dec.bind]
  rw [decodeFields_full fs h.fields, h.value]

/-- Whether a record cut after `n` bytes looks like the end of the file. -/
def recordCutClean {σ : Type} (fs : List (Field σ)) : Nat → Bool
  | 0 => true
  | n + 1 => cutClean fs n

theorem record_cut {σ : Type} {init : σ} {field : σ → Str → Str → Dec σ} {enc : Str} {a : σ} {fs : List (Field σ)}
    (h : RecordOk init field enc a fs) (s t : Str) (he : enc = s ++ t) (ht : t ≠ []) :
    decodeMsg init field s = cutOutcome (recordCutClean fs s.length) := by
  rw [h.bytes] at he
  cases s with
  | nil => rfl
  | cons b s =>
    rw [List.cons_append] at he
    injection he with h1 h2
    subst h1
    rw [decodeMsg, mapHeader_full h.count]
    simp only [Dec.bind, List.length_cons, recordCutClean]
    exact decodeFields_cut fs h.fields init s t h2 ht

theorem record_ne_nil {σ : Type} {init : σ} {field : σ → Str → Str → Dec σ} {enc : Str} {a : σ} {fs : List (Field σ)}
    (h : RecordOk init field enc a fs) : enc ≠ [] := by
  rw [h.bytes]; simp

/-! ## Streams -/

theorem readAll_record {σ : Type} {dec : Str → Dec σ} {enc : Str} {a : σ} (hf : ∀ rest, dec (enc ++ rest) = .ok a rest) (hne : enc ≠ [])
    (rest : Str) : readAll dec (enc ++ rest) = (a :: (readAll dec rest).1, (readAll dec rest).2) := by
  rw [readAll, hf]
  have : rest.length < (enc ++ rest).length := by
    have := List.length_pos_iff.2 hne
    rw [List.length_append]; omega
  simp only [if_pos this]

theorem readAll_stream {σ : Type} {dec : Str → Dec σ} {enc : σ → Str} (l : List σ) (hf : ∀ a ∈ l, ∀ rest, dec (enc a ++ rest) = .ok a rest)
    (hne : ∀ a ∈ l, enc a ≠ []) (tail : Str) :
    readAll dec (l.flatMap enc ++ tail) = (l ++ (readAll dec tail).1, (readAll dec tail).2) := by
  induction l with
  | nil => rfl
  | cons a l ih =>
    rw [List.flatMap_cons, List.append_assoc, readAll_record (hf a (by simp)) (hne a (by simp)),
      ih (fun b hb => hf b (by simp [hb])) (fun b hb => hne b (by simp [hb]))]
    rfl

end Ripsrc
