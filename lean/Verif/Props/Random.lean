import Verif.Model.Random
/-!
# C73: random strings
-/
namespace Ripsrc

theorem lenc_toNat (chars : Str) : (UInt8.ofNat chars.length).toNat = chars.length % 256 := by simp

theorem randomString_some (chars : Str) (h : chars.length % 256 ≠ 0) (b : UInt8) :
    ∃ c, chars[b.toNat % (chars.length % 256)]? = some c ∧ (UInt8.ofNat chars.length) ≠ 0 ∧ (b % UInt8.ofNat chars.length).toNat = b.toNat % (chars.length % 256) := by
  have h1 : b.toNat % (chars.length % 256) < chars.length :=
    Nat.lt_of_lt_of_le (Nat.mod_lt _ (Nat.pos_of_ne_zero h)) (Nat.mod_le _ _)
  refine ⟨chars[b.toNat % (chars.length % 256)], List.getElem?_eq_getElem h1, ?_, ?_⟩
  · intro h0
    have := congrArg UInt8.toNat h0
    rw [lenc_toNat] at this
    exact h this
  · rw [UInt8.toNat_mod, lenc_toNat]

/-- **C73**: if the size of the alphabet is not a multiple of 256, `String` does not panic, and the `i`-th byte of the result is the character whose number is the `i`-th random byte modulo
the size of the alphabet modulo 256. So the result has the wanted length and is made of characters of the alphabet. -/
theorem C73_string (chars rnd : Str) (h : chars.length % 256 ≠ 0) :
    ∃ r, randomString chars rnd = .ok r ∧ r.length = rnd.length ∧ (∀ c ∈ r, c ∈ chars) ∧
      ∀ (i : Nat) (b : UInt8), rnd[i]? = some b → r[i]? = chars[b.toNat % (chars.length % 256)]? := by
  induction rnd with
  | nil => exact ⟨[], rfl, rfl, by simp, by simp⟩
  | cons b bs ih =>
    obtain ⟨r, hr, hl, hm, hi⟩ := ih
    obtain ⟨c, hc, h0, hb⟩ := randomString_some chars h b
    refine ⟨c :: r, ?_, by simp [hl], ?_, ?_⟩
    · simp only [randomString, if_neg h0, hb, hc, hr]; rfl
    · intro x hx
      rcases List.mem_cons.1 hx with rfl | hx
      · exact List.mem_of_getElem? hc
      · exact hm x hx
    · intro i b' hb'
      cases i with
      | zero => simp at hb'; subst hb'; simp [hc]
      | succ i => simpa using hi i b' (by simpa using hb')

/-- **C73**: if the size of the alphabet is a multiple of 256 (for example 0 or 256), every call with a positive count panics. -/
theorem C73_panics (chars rnd : Str) (h : chars.length % 256 = 0) (hr : rnd ≠ []) : ∃ w, randomString chars rnd = .error (.panic w) := by
  cases rnd with
  | nil => exact absurd rfl hr
  | cons b bs =>
    have : UInt8.ofNat chars.length = 0 := by
      apply UInt8.toNat_inj.1
      rw [lenc_toNat, h]; rfl
    exact ⟨"integer divide by zero", by simp only [randomString, this, if_true]⟩

/-- **C73**: of an alphabet of more than 256 characters, only the first `size mod 256` are used. -/
theorem C73_large_alphabet (chars rnd r : Str) (h : randomString chars rnd = .ok r) (hr : chars.length % 256 ≠ 0) : ∀ c ∈ r, c ∈ chars.take (chars.length % 256) := by
  obtain ⟨r', hr', hl, -, hi⟩ := C73_string chars rnd hr
  rw [h] at hr'; cases hr'
  intro c hc
  obtain ⟨i, hlt, hic⟩ := List.mem_iff_getElem.1 hc
  have hb : rnd[i]? = some (rnd[i]'(by omega)) := List.getElem?_eq_getElem (by omega)
  have := hi i _ hb
  rw [List.getElem?_eq_getElem hlt, hic] at this
  apply List.mem_of_getElem? (i := (rnd[i]'(by omega)).toNat % (chars.length % 256))
  rw [List.getElem?_take, if_pos (Nat.mod_lt _ (Nat.pos_of_ne_zero hr))]
  exact this.symm

theorem count_mod (m i : Nat) (hi : i < m) (q r : Nat) (hr : r < m) : ((List.range (m * q + r)).countP fun x => x % m == i) = q + if i < r then 1 else 0 := by
  generalize hn : m * q + r = n
  induction n generalizing q r with
  | zero =>
    have : q = 0 := by
      rcases Nat.eq_zero_or_pos q with h | h
      · exact h
      · have := Nat.mul_pos (by omega : 0 < m) h; omega
    have : r = 0 := by omega
    subst_vars; simp
  | succ n ih =>
    rw [List.range_succ, List.countP_append]
    cases r with
    | succ r =>
      have hn' : m * q + r = n := by omega
      rw [ih q r (by omega) hn']
      have : n % m = r := by rw [← hn', Nat.mul_add_mod, Nat.mod_eq_of_lt (by omega)]
      simp only [List.countP_cons, List.countP_nil, this, beq_iff_eq]
      by_cases h1 : i < r
      · rw [if_pos h1, if_neg (by omega), if_pos (by omega)]
      · by_cases h2 : r = i
        · rw [if_neg h1, if_pos h2, if_pos (by omega)]
        · rw [if_neg h1, if_neg h2, if_neg (by omega)]
    | zero =>
      cases q with
      | zero => simp at hn
      | succ q =>
        have hn' : m * q + (m - 1) = n := by rw [Nat.mul_succ] at hn; omega
        rw [ih q (m - 1) (by omega) hn']
        have : n % m = m - 1 := by rw [← hn', Nat.mul_add_mod, Nat.mod_eq_of_lt (by omega)]
        simp only [List.countP_cons, List.countP_nil, this, beq_iff_eq]
        by_cases h1 : i < m - 1
        · rw [if_pos h1, if_neg (by omega), if_neg (by omega)]
        · rw [if_neg h1, if_pos (by omega), if_neg (by omega)]

/-- **C73**: the characters are not equally likely: of the 256 values of a random byte, `256 / n + 1` give each of the first `256 mod n` characters of an alphabet of `n` different characters, and
`256 / n` each of the others. -/
theorem C73_bias (chars : Str) (hnd : chars.Nodup) (h0 : 0 < chars.length) (h1 : chars.length < 256) {i : Nat} {c : UInt8} (hc : chars[i]? = some c) :
    ((List.range 256).countP fun b => randomString chars [UInt8.ofNat b] == .ok [c]) = 256 / chars.length + if i < 256 % chars.length then 1 else 0 := by
  have hil : i < chars.length := by
    rcases Nat.lt_or_ge i chars.length with hl | hl
    · exact hl
    · rw [List.getElem?_eq_none hl] at hc; cases hc
  have hm : chars.length % 256 = chars.length := Nat.mod_eq_of_lt h1
  have e : 256 = chars.length * (256 / chars.length) + 256 % chars.length := (Nat.div_add_mod _ _).symm
  have key := count_mod chars.length i hil (256 / chars.length) (256 % chars.length) (Nat.mod_lt _ h0)
  rw [← e] at key
  rw [← key]
  apply List.countP_congr
  intro b hb
  have hb : b < 256 := List.mem_range.1 hb
  obtain ⟨r, hr, hl, -, hi⟩ := C73_string chars [UInt8.ofNat b] (by omega)
  have h2 := hi 0 (UInt8.ofNat b) rfl
  have hbn : (UInt8.ofNat b).toNat = b := by simp; omega
  rw [hbn, hm] at h2
  have hbl : b % chars.length < chars.length := Nat.mod_lt _ h0
  match r, hl with
  | [x], _ =>
    rw [hr]
    rw [List.getElem?_eq_getElem hbl] at h2
    simp only [List.getElem?_cons_zero, Option.some.injEq] at h2
    rw [List.getElem?_eq_getElem hil, Option.some.injEq] at hc
    rw [beq_iff_eq, beq_iff_eq, Except.ok.injEq, List.cons.injEq, h2, ← hc]
    constructor
    · rintro ⟨h, -⟩; exact (List.getElem_inj hnd).1 h
    · intro h; refine ⟨?_, rfl⟩; simp only [h]

/-- The hypotheses are met by the alphabet of the package: 8 characters are given by 5 byte values, 54 by 4. -/
example : latinAndNumbers.Nodup ∧ latinAndNumbers.length = 62 ∧ 256 / 62 = 4 ∧ 256 % 62 = 8 := by decide +kernel

example : randomString latinAndNumbers [0, 61, 62, 255] = .ok b!"A9AH" := by decide +kernel

end Ripsrc
