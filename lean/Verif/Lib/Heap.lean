import Verif.Spec.Heap
import Verif.Lib.Apply
/-! Helper lemmas for C54: the pointer-level functions refine the value-level ones and change no old object. -/
namespace Ripsrc

/-- Two results agree: both fail in the same way or both succeed with related values. -/
def GoRel {α β : Type} (R : α → β → Prop) : Go α → Go β → Prop
  | .ok a, .ok b => R a b
  | .error e, .error f => e = f
  | _, _ => False

theorem GoRel.bind {α β γ δ : Type} {R : α → β → Prop} {S : γ → δ → Prop} {x : Go α} {y : Go β} {f : α → Go γ}
    {g : β → Go δ} (h : GoRel R x y) (hf : ∀ a b, R a b → GoRel S (f a) (g b)) : GoRel S (x >>= f) (y >>= g) := by
  cases x <;> cases y <;> simp only [GoRel] at h
  · exact h
  · exact hf _ _ h

theorem GoRel.foldlM {α β ι : Type} {R : α → β → Prop} {f : α → ι → Go α} {g : β → ι → Go β}
    (hf : ∀ a b x, R a b → GoRel R (f a x) (g b x)) :
    ∀ (xs : List ι) a b, R a b → GoRel R (xs.foldlM f a) (xs.foldlM g b)
  | [], a, b, h => by simpa [GoRel, pure, Except.pure] using h
  | x :: xs, a, b, h => by
    simp only [List.foldlM_cons]
    exact (hf a b x h).bind (fun a b h => GoRel.foldlM hf xs a b h)

theorem Unchanged.refl (h : Heap) : Unchanged h h := ⟨fun _ _ h => h, fun _ _ h => h, fun _ _ h => h⟩

theorem Unchanged.trans {a b c : Heap} (h : Unchanged a b) (k : Unchanged b c) : Unchanged a c :=
  ⟨fun i x e => k.bufs i x (h.bufs i x e), fun i x e => k.lines i x (h.lines i x e),
    fun i x e => k.arrs i x (h.arrs i x e)⟩

theorem len_le_of_get {α : Type} {a b : List α} (h : ∀ (i : Nat) x, a[i]? = some x → b[i]? = some x) : a.length ≤ b.length := by
  rcases Nat.lt_or_ge b.length a.length with hl | hl
  · have := h b.length (a[b.length]) (by simp [hl])
    simp at this
  · exact hl

theorem Unchanged.back {h h' : Heap} (u : Unchanged h h') {s : Slice} (hs : ∀ a, s.arr = some a → a < h.arrs.length) :
    h'.back s = h.back s := by
  unfold Heap.back
  cases ha : s.arr with
  | none => rfl
  | some a =>
    have := hs a ha
    have e : h.arrs[a]? = some h.arrs[a] := by simp [this]
    simp only [e, u.arrs a _ e]

theorem Unchanged.load {h h' : Heap} (u : Unchanged h h') {p : Nat} (hp : h.ValidPtr p) : h'.load p = h.load p := by
  obtain ⟨l, hl, hb⟩ := hp
  unfold Heap.load
  have e : h.bufs[l.buf]? = some h.bufs[l.buf] := by simp [hb]
  simp only [hl, u.lines p _ hl, e, u.bufs _ _ e]

theorem Unchanged.validPtr {h h' : Heap} (u : Unchanged h h') {p : Nat} (hp : h.ValidPtr p) : h'.ValidPtr p := by
  obtain ⟨l, hl, hb⟩ := hp
  exact ⟨l, u.lines p _ hl, Nat.lt_of_lt_of_le hb (len_le_of_get u.bufs)⟩

theorem Unchanged.elems {h h' : Heap} (u : Unchanged h h') {s : Slice} (hs : h.ValidSlice s) :
    h'.elems s = h.elems s := by
  unfold Heap.elems
  rw [u.back hs.arr]

theorem Unchanged.validSlice {h h' : Heap} (u : Unchanged h h') {s : Slice} (hs : h.ValidSlice s) :
    h'.ValidSlice s where
  len := by rw [u.back hs.arr]; exact hs.len
  arr := fun a ha => Nat.lt_of_lt_of_le (hs.arr a ha) (len_le_of_get u.arrs)
  ptr := fun p hp => u.validPtr (hs.ptr p (by rwa [u.elems hs] at hp))

theorem Unchanged.view {h h' : Heap} (u : Unchanged h h') {b : HBlame} (hb : h.Valid b) : h'.view b = h.view b := by
  unfold Heap.view
  rw [u.elems hb]
  congr 1
  exact List.map_congr_left (fun p hp => u.load (hb.ptr p hp))

theorem elems_length {h : Heap} {s : Slice} (hs : h.ValidSlice s) : (h.elems s).length = s.len := by
  unfold Heap.elems
  rw [List.length_take]
  exact Nat.min_eq_left hs.len

/-- The slice is nil or lives in an array allocated after `h0`. -/
def Owned (h0 : Heap) (s : Slice) : Prop := ∀ a, s.arr = some a → h0.arrs.length ≤ a

structure AppendOk (h0 h : Heap) (s : Slice) (xs : List Nat) (h' : Heap) (s' : Slice) : Prop where
  bufs : h'.bufs = h.bufs
  lines : h'.lines = h.lines
  elems : h'.elems s' = h.elems s ++ xs
  valid : h'.ValidSlice s'
  owned : Owned h0 s'
  unch : Unchanged h0 h'

theorem append_ok (grow : Nat → Nat) {h0 h : Heap} {s : Slice} {xs : List Nat} (hs : h.ValidSlice s) (ho : Owned h0 s)
    (hx : ∀ p ∈ xs, h.ValidPtr p) (u : Unchanged h0 h) :
    AppendOk h0 h s xs (h.append grow s xs).1 (h.append grow s xs).2 := by
  have hlen := hs.len
  unfold Heap.append
  dsimp only
  split
  · rename_i hcap
    cases ha : s.arr with
    | none =>
      have hb : h.back s = [] := by unfold Heap.back; rw [ha]
      rw [hb] at hcap
      have hx0 : xs = [] := by
        cases xs with
        | nil => rfl
        | cons x xs => simp at hcap
      subst hx0
      exact ⟨rfl, rfl, by simp, hs, ho, u⟩
    | some a =>
      have hal := hs.arr a ha
      have hao := ho a ha
      have hback : h.back s = h.arrs[a] := by unfold Heap.back; rw [ha]; simp [hal]
      dsimp only
      have hb' : Heap.back { h with arrs := h.arrs.set a ((h.back s).take s.len ++ xs ++ (h.back s).drop (s.len + xs.length)) }
          { s with len := s.len + xs.length } = (h.back s).take s.len ++ xs ++ (h.back s).drop (s.len + xs.length) := by
        simp [Heap.back, ha, hal]
      have hel : Heap.elems { h with arrs := h.arrs.set a ((h.back s).take s.len ++ xs ++ (h.back s).drop (s.len + xs.length)) }
          { s with len := s.len + xs.length } = h.elems s ++ xs := by
        unfold Heap.elems
        rw [hb']
        have : s.len + xs.length = (List.take s.len (h.back s) ++ xs).length := by simp; omega
        dsimp only
        rw [this, List.take_left']
        rfl
      refine ⟨rfl, rfl, by simpa [ha] using hel, ⟨?_, ?_, ?_⟩, ?_, ?_⟩
      · simp only [ha] at hb'
        rw [hb']
        simp; omega
      · intro b hb
        simp only [List.length_set]
        cases hb; exact hal
      · intro p hp
        simp only [ha] at hel
        rw [hel] at hp
        rw [List.mem_append] at hp
        rcases hp with hp | hp
        · exact hs.ptr p hp
        · exact hx p hp
      · intro b hb
        cases hb; exact hao
      · refine ⟨u.bufs, u.lines, fun i x e => ?_⟩
        have hi : i < h0.arrs.length := by
          rcases Nat.lt_or_ge i h0.arrs.length with hl | hl
          · exact hl
          · simp [hl] at e
        dsimp only
        rw [List.getElem?_set_ne (by omega)]
        exact u.arrs i x e
  · rename_i hcap
    have hel : Heap.elems { h with arrs := h.arrs ++ [h.elems s ++ xs ++ List.replicate (grow (s.len + xs.length)) 0] }
        { arr := some h.arrs.length, len := s.len + xs.length } = h.elems s ++ xs := by
      have hb : Heap.back { h with arrs := h.arrs ++ [h.elems s ++ xs ++ List.replicate (grow (s.len + xs.length)) 0] }
        { arr := some h.arrs.length, len := s.len + xs.length } = h.elems s ++ xs ++ List.replicate (grow (s.len + xs.length)) 0 := by
        simp [Heap.back]
      have hl : s.len + xs.length = (h.elems s ++ xs).length := by simp [elems_length hs]
      unfold Heap.elems at *
      rw [hb]
      dsimp only
      rw [List.take_left' (by rw [hl])]
    refine ⟨rfl, rfl, hel, ⟨?_, ?_, ?_⟩, ?_, ?_⟩
    · simp [Heap.back, elems_length hs]
    · intro b hb
      cases hb; simp only [List.length_append, List.length_cons]; omega
    · intro p hp
      rw [hel, List.mem_append] at hp
      rcases hp with hp | hp
      · exact hs.ptr p hp
      · exact hx p hp
    · intro b hb
      cases hb
      exact len_le_of_get u.arrs
    · refine ⟨u.bufs, u.lines, fun i x e => ?_⟩
      have := u.arrs i x e
      dsimp only
      rw [List.getElem?_append_left]
      · exact this
      · rcases Nat.lt_or_ge i h.arrs.length with hl | hl
        · exact hl
        · simp [hl] at this

/-- Simulation relation between hunks. -/
structure Sim (h0 : Heap) (vs : ApplySt) (s : HApplySt) : Prop where
  unch : Unchanged h0 s.h
  owned : Owned h0 s.res
  valid : s.h.ValidSlice s.res
  res : (s.h.elems s.res).map s.h.load = vs.res
  idx : s.idx = vs.idx

/-- Simulation relation inside a hunk, with the scanner's buffer `sbuf`. -/
structure SimL (h0 : Heap) (sbuf : Nat) (vs : ApplySt) (s : HApplySt) : Prop extends Sim h0 vs s where
  sold : h0.bufs.length ≤ sbuf
  salloc : sbuf < s.h.bufs.length
  sfresh : ∀ p ∈ s.h.elems s.res, ∀ l, s.h.lines[p]? = some l → l.buf ≠ sbuf

theorem scanInto_load {h : Heap} {sbuf p : Nat} {tok : Str} (hp : ∀ l, h.lines[p]? = some l → l.buf ≠ sbuf) :
    (h.scanInto sbuf tok).load p = h.load p := by
  unfold Heap.load Heap.scanInto
  dsimp only
  cases e : h.lines[p]? with
  | none => rfl
  | some l =>
    dsimp only
    rw [List.getElem?_set_ne (Ne.symm (hp l e))]

theorem scanInto_sim {h0 : Heap} {sbuf : Nat} {vs : ApplySt} {s : HApplySt} (tok : Str) (hs : SimL h0 sbuf vs s) :
    SimL h0 sbuf vs { s with h := s.h.scanInto sbuf tok } := by
  have hload : ∀ p ∈ s.h.elems s.res, (s.h.scanInto sbuf tok).load p = s.h.load p :=
    fun p hp => scanInto_load (hs.sfresh p hp)
  refine ⟨⟨⟨fun i x e => ?_, hs.unch.lines, hs.unch.arrs⟩, hs.owned, ⟨hs.valid.len, hs.valid.arr, fun p hp => ?_⟩, ?_, hs.idx⟩,
    hs.sold, by simpa [Heap.scanInto] using hs.salloc, hs.sfresh⟩
  · have hi : i < h0.bufs.length := by
      rcases Nat.lt_or_ge i h0.bufs.length with hl | hl
      · exact hl
      · simp [hl] at e
    have := hs.sold
    dsimp only [Heap.scanInto]
    rw [List.getElem?_set_ne (by omega)]
    exact hs.unch.bufs i x e
  · obtain ⟨l, hl, hb⟩ := hs.valid.ptr p hp
    exact ⟨l, hl, by simpa [Heap.scanInto] using hb⟩
  · rw [← hs.res]
    exact List.map_congr_left hload

theorem load_congr {h h' : Heap} (hb : h'.bufs = h.bufs) (hl : h'.lines = h.lines) (p : Nat) :
    h'.load p = h.load p := by
  unfold Heap.load; rw [hb, hl]

theorem elems_getElem?_of_unchanged {h0 h : Heap} {file : Slice} (hf : h0.ValidSlice file) (u : Unchanged h0 h) :
    h.elems file = h0.elems file := u.elems hf

theorem copyLine_sim (grow : Nat → Nat) {h0 : Heap} {sbuf : Nat} {file : Slice} (hf : h0.ValidSlice file) {vs : ApplySt}
    {s : HApplySt} (hs : SimL h0 sbuf vs s) :
    GoRel (SimL h0 sbuf)
      (match ((h0.elems file).map h0.load)[vs.idx]? with
        | none => .error (.panic "index out of range: file.Lines[i]")
        | some l => .ok { res := vs.res ++ [l], idx := vs.idx + 1 })
      (do let s ← hCopyLine grow file s s.idx; .ok { s with idx := s.idx + 1 }) := by
  unfold hCopyLine
  rw [hs.unch.elems hf, hs.idx, List.getElem?_map]
  cases e : (h0.elems file)[vs.idx]? with
  | none => simp [GoRel, bind, Except.bind]
  | some p =>
    have hp : p ∈ h0.elems file := List.mem_of_getElem? e
    have hvp := hf.ptr p hp
    have ha := append_ok grow hs.valid hs.owned (xs := [p])
      (fun q hq => by
        rw [List.mem_singleton] at hq
        subst hq; exact hs.unch.validPtr hvp) hs.unch
    simp only [Option.map_some, bind, Except.bind, GoRel]
    refine ⟨⟨ha.unch, ha.owned, ha.valid, ?_, by simpa using hs.idx⟩, hs.sold, ?_, ?_⟩
    · simp only [ha.elems, List.map_append, List.map_cons, List.map_nil]
      rw [load_congr ha.bufs ha.lines, hs.unch.load hvp]
      congr 1
      rw [← hs.res]
      exact List.map_congr_left (fun q _ => load_congr ha.bufs ha.lines q)
    · dsimp only; rw [ha.bufs]; exact hs.salloc
    · dsimp only
      rw [ha.elems, ha.lines]
      intro q hq l hl
      rw [List.mem_append, List.mem_singleton] at hq
      rcases hq with hq | rfl
      · exact hs.sfresh q hq l hl
      · obtain ⟨l', hl', hb'⟩ := hvp
        have := hs.unch.lines q l' hl'
        rw [this] at hl
        cases hl
        have := hs.sold
        omega

theorem addLine_sim (grow : Nat → Nat) {h0 : Heap} {sbuf : Nat} {vs : ApplySt} {s : HApplySt} (commit : Str)
    (data : Str) (hs : SimL h0 sbuf vs s) (hd : (s.h.bufs[sbuf]?.getD []).drop 1 = data) :
    SimL h0 sbuf { vs with res := vs.res ++ [{ line := data, commit := commit }] } (hAddLine grow commit sbuf s) := by
  have hu : Unchanged s.h
      { s.h with bufs := s.h.bufs ++ [data], lines := s.h.lines ++ [{ buf := s.h.bufs.length, commit := commit }] } := by
    refine ⟨fun i x e => ?_, fun i x e => ?_, fun _ _ e => e⟩
    · dsimp only
      rw [List.getElem?_append_left]; exact e
      rcases Nat.lt_or_ge i s.h.bufs.length with hl | hl
      · exact hl
      · simp [hl] at e
    · dsimp only
      rw [List.getElem?_append_left]; exact e
      rcases Nat.lt_or_ge i s.h.lines.length with hl | hl
      · exact hl
      · simp [hl] at e
  have ha := append_ok grow (h0 := h0) (hu.validSlice hs.valid) hs.owned (xs := [s.h.lines.length])
      (fun q hq => by
        rw [List.mem_singleton] at hq
        subst hq
        exact ⟨{ buf := s.h.bufs.length, commit := commit }, by simp, by simp⟩) (hs.unch.trans hu)
  unfold hAddLine
  dsimp only
  rw [hd]
  refine ⟨⟨ha.unch, ha.owned, ha.valid, ?_, hs.idx⟩, hs.sold, ?_, ?_⟩
  · simp only [ha.elems, List.map_append, List.map_cons, List.map_nil]
    rw [load_congr ha.bufs ha.lines]
    congr 1
    · rw [← hs.res, hu.elems hs.valid]
      exact List.map_congr_left (fun q hq => (load_congr ha.bufs ha.lines q).trans (hu.load (hs.valid.ptr q hq)))
    · simp [Heap.load]
  · dsimp only
    rw [ha.bufs]
    have := hs.salloc
    simp; omega
  · dsimp only
    rw [ha.elems, ha.lines]
    intro q hq l hl
    rw [List.mem_append, List.mem_singleton, hu.elems hs.valid] at hq
    rcases hq with hq | rfl
    · obtain ⟨l', hl', _⟩ := hs.valid.ptr q hq
      have := hu.lines q l' hl'
      dsimp only at this hl
      rw [this] at hl
      cases hl
      exact hs.sfresh q hq _ hl'
    · dsimp only at hl
      simp at hl
      subst hl
      have := hs.salloc
      dsimp only
      omega

theorem applyLine_sim (grow : Nat → Nat) {h0 : Heap} {sbuf : Nat} {file : Slice} (hf : h0.ValidSlice file) {vs : ApplySt}
    {s : HApplySt} (commit : Str) (b : Str) (hs : SimL h0 sbuf vs s) :
    GoRel (SimL h0 sbuf) (applyLine ((h0.elems file).map h0.load) commit vs b)
      (hApplyLine grow file commit sbuf s b) := by
  have hs' := scanInto_sim b hs
  unfold applyLine hApplyLine
  cases b with
  | nil => simp [GoRel]
  | cons op data =>
    dsimp only
    split
    · exact copyLine_sim grow hf hs'
    · split
      · exact ⟨⟨hs'.unch, hs'.owned, hs'.valid, hs'.res, by simpa using hs.idx⟩, hs'.sold, hs'.salloc, hs'.sfresh⟩
      · split
        · refine addLine_sim grow commit data hs' ?_
          have := hs.salloc
          simp [Heap.scanInto, this]
        · split
          · split
            · exact hs'
            · simp [GoRel]
          · simp [GoRel]

theorem copyRange_sim (grow : Nat → Nat) {h0 : Heap} {file : Slice} (hf : h0.ValidSlice file) {vs : ApplySt}
    {s : HApplySt} (hs : Sim h0 vs s) (to : Int) :
    GoRel (fun r p => ∀ i, Sim h0 { res := r, idx := i } { h := p.1, res := p.2, idx := i })
      (copyRange ((h0.elems file).map h0.load) vs.res vs.idx to) (hCopyRange grow file s.h s.res s.idx to) := by
  unfold copyRange hCopyRange
  rw [hs.unch.elems hf, hs.idx, List.length_map]
  split
  · simp [GoRel]
  · have hsub : ∀ p ∈ ((h0.elems file).drop vs.idx).take (to.toNat - vs.idx), h0.ValidPtr p := fun p hp =>
      hf.ptr p (List.mem_of_mem_drop (List.mem_of_mem_take hp))
    have ha := append_ok grow hs.valid hs.owned (fun p hp => hs.unch.validPtr (hsub p hp)) hs.unch
    simp only [GoRel]
    intro i
    refine ⟨ha.unch, ha.owned, ha.valid, ?_, rfl⟩
    simp only [ha.elems, List.map_append]
    congr 1
    · rw [← hs.res]
      exact List.map_congr_left (fun q _ => load_congr ha.bufs ha.lines q)
    · rw [← List.map_drop, ← List.map_take]
      exact (List.map_congr_left (fun q hq => (load_congr ha.bufs ha.lines q).trans (hs.unch.load (hsub q hq))))

theorem applyHunk_sim (grow : Nat → Nat) {h0 : Heap} {file : Slice} (hf : h0.ValidSlice file) (commit : Str) (vs : ApplySt)
    (s : HApplySt) (hk : Hunk) (hs : Sim h0 vs s) :
    GoRel (Sim h0) (applyHunk ((h0.elems file).map h0.load) commit vs hk) (hApplyHunk grow file commit s hk) := by
  unfold applyHunk hApplyHunk
  cases hk.locations with
  | nil => simp [GoRel]
  | cons loc _ =>
    dsimp only
    refine (copyRange_sim grow hf hs (hunkStart loc)).bind (fun r p hp => ?_)
    have hp := hp (hunkStart loc).toNat
    have hu : Unchanged p.1 { p.1 with bufs := p.1.bufs ++ [[]] } := by
      refine ⟨fun i x e => ?_, fun _ _ e => e, fun _ _ e => e⟩
      dsimp only
      rw [List.getElem?_append_left]; exact e
      rcases Nat.lt_or_ge i p.1.bufs.length with hl | hl
      · exact hl
      · simp [hl] at e
    have hl : SimL h0 p.1.bufs.length { res := r, idx := (hunkStart loc).toNat }
        { h := { p.1 with bufs := p.1.bufs ++ [[]] }, res := p.2, idx := (hunkStart loc).toNat } := by
      refine ⟨⟨hp.unch.trans hu, hp.owned, hu.validSlice hp.valid, ?_, rfl⟩, len_le_of_get hp.unch.bufs, by simp, ?_⟩
      · rw [← hp.res]
        dsimp only
        rw [hu.elems hp.valid]
        exact List.map_congr_left (fun q hq => hu.load (hp.valid.ptr q hq))
      · dsimp only
        rw [hu.elems hp.valid]
        intro q hq l hl
        obtain ⟨l', hl', hb⟩ := hp.valid.ptr q hq
        dsimp only at hl' hb
        rw [hl'] at hl
        cases hl
        exact Nat.ne_of_lt hb
    refine (GoRel.foldlM (fun a b x hab => applyLine_sim grow hf commit x hab) (scan incMaxLine hk.data).1 _ _ hl).bind
      (fun a b hab => ?_)
    split
    · simp [GoRel]
    · exact hab.toSim

/-- The pointer-level `Apply` refines the value-level one. -/
theorem hApply_sim (grow : Nat → Nat) (srt : List Hunk → List Hunk) (h : Heap) (file : HBlame) (diff : Diff)
    (commit : Str) (hf : h.Valid file) :
    GoRel (fun b p => Unchanged h p.1 ∧ p.1.Valid p.2 ∧ p.1.view p.2 = b ∧ Owned h p.2.lines)
      (apply srt (h.view file) diff commit) (hApply grow srt h file diff commit) := by
  unfold apply hApply
  have e1 : (h.view file).isBinary = file.isBinary := rfl
  have e2 : (h.view file).lines = (h.elems file.lines).map h.load := rfl
  rw [e1, e2]
  split
  · simp [GoRel]
  split
  · simp [GoRel]
  split
  · simp [GoRel]
  have h0 : Sim h { res := [], idx := 0 } { h := h, res := {}, idx := 0 } := by
    refine ⟨Unchanged.refl h, ?_, ⟨?_, ?_, ?_⟩, ?_, rfl⟩
    · intro a ha; cases ha
    · simp
    · intro a ha; cases ha
    · intro p hp; simp [Heap.elems, Heap.back] at hp
    · simp [Heap.elems, Heap.back]
  refine (GoRel.foldlM (fun a b x hab => applyHunk_sim grow hf commit a b x hab) (srt diff.hunks) _ _ h0).bind
    (fun a b hab => ?_)
  have hlen : ((h.elems file.lines).map h.load).length = (b.h.elems file.lines).length := by
    rw [hab.unch.elems hf, List.length_map]
  rw [hlen]
  refine (copyRange_sim grow hf hab _).bind (fun r p hp => ?_)
  have hp := hp 0
  simp only [GoRel]
  refine ⟨hp.unch, hp.valid, ?_, hp.owned⟩
  unfold Heap.view
  have := hp.res
  dsimp only at this ⊢
  rw [this]

/-! ## Merge -/

/-- The candidates built by `ApplyMerge`. -/
structure CandSim (h0 : Heap) (vcs : List Blame) (h : Heap) (cs : List HBlame) : Prop where
  unch : Unchanged h0 h
  valid : ∀ c ∈ cs, h.Valid c
  views : cs.map h.view = vcs
  owned : ∀ c ∈ cs, Owned h0 c.lines
  distinct : cs.Pairwise (fun a b => ∀ x y, a.lines.arr = some x → b.lines.arr = some y → x ≠ y)

theorem hMergeCands_sim (grow : Nat → Nat) (srt : List Hunk → List Hunk) (commit : Str) :
    ∀ (h : Heap) (ps : List HBlame) (ds : List Diff), (∀ p ∈ ps, h.Valid p) →
      GoRel (fun vcs p => CandSim h vcs p.1 p.2) (mergeCands srt commit (ps.map h.view) ds)
        (hMergeCands grow srt commit h ps ds)
  | h, [], ds, _ => by
    simp only [List.map_nil, mergeCands, hMergeCands, GoRel]
    exact ⟨Unchanged.refl h, by simp, by simp, by simp, by simp⟩
  | h, p :: ps, [], _ => by simp [mergeCands, hMergeCands, GoRel]
  | h, p :: ps, d :: ds, hv => by
    simp only [List.map_cons, mergeCands, hMergeCands]
    refine (hApply_sim grow srt h p d commit (hv p (by simp))).bind (fun b q hq => ?_)
    obtain ⟨q1, q2, q3, q4⟩ := hq
    have ih := hMergeCands_sim grow srt commit q.1 ps ds (fun x hx => q1.validSlice (hv x (by simp [hx])))
    have hmap : ps.map q.1.view = ps.map h.view :=
      List.map_congr_left (fun x hx => q1.view (hv x (by simp [hx])))
    rw [hmap] at ih
    refine ih.bind (fun vcs r hr => ?_)
    simp only [GoRel]
    refine ⟨q1.trans hr.unch, ?_, ?_, ?_, ?_⟩
    · intro c hc
      rcases List.mem_cons.1 hc with rfl | hc
      · exact hr.unch.validSlice q2
      · exact hr.valid c hc
    · simp only [List.map_cons]
      rw [hr.views, hr.unch.view q2, q3]
    · intro c hc
      rcases List.mem_cons.1 hc with rfl | hc
      · exact q4
      · exact fun a ha => Nat.le_trans (len_le_of_get q1.arrs) (hr.owned c hc a ha)
    · refine List.Pairwise.cons ?_ hr.distinct
      intro c hc x y hx hy
      have h1 := q2.arr x hx
      have h2 := hr.owned c hc y hy
      omega

/-- Outcome of the inner loop of `ApplyMerge`. -/
theorem hMergePick_spec (commit : Str) (res : Slice) (i a : Nat) (h : Heap) (own : HLine) (ownv : Line)
    (ha : res.arr = some a) (hown : h.lineAt res i = .ok own) :
    ∀ (cs : List HBlame) (ls : List Line),
      cs.map (fun c => (h.lineAt c.lines i).map HLine.commit) = ls.map (fun l => .ok l.commit) →
      (hMergePick commit res i cs h = .ok h ∧ mergePick commit ownv ls = ownv) ∨
      ∃ c, hMergePick commit res i cs h
          = .ok { h with lines := h.lines ++ [{ own with commit := c }], arrs := h.arrs.set a ((h.back res).set i h.lines.length) }
        ∧ mergePick commit ownv ls = { ownv with commit := c }
  | [], [], _ => Or.inl ⟨rfl, rfl⟩
  | [], _ :: _, hf => by cases hf
  | _ :: _, [], hf => by cases hf
  | c :: cs, l :: ls, hf => by
    simp only [List.map_cons, List.cons.injEq] at hf
    obtain ⟨h1, h2⟩ := hf
    simp only [hMergePick, mergePick]
    cases e1 : h.lineAt c.lines i with
    | error e => rw [e1] at h1; cases h1
    | ok hl =>
      rw [e1] at h1
      have e2 : hl.commit = l.commit := by simpa [Except.map] using h1
      simp only [bind, Except.bind, e2]
      by_cases hc : l.commit ≠ commit
      · refine Or.inr ⟨l.commit, ?_, by simp [hc]⟩
        simp only [if_pos hc, hown, ha]
        rfl
      · simp only [if_neg hc]
        exact hMergePick_spec commit res i a h own ownv ha hown cs ls h2

theorem lineAt_ok {h : Heap} {s : Slice} {i : Nat} (hs : h.ValidSlice s) (hi : i < s.len) :
    ∃ p l, (h.elems s)[i]? = some p ∧ h.lines[p]? = some l ∧ l.buf < h.bufs.length ∧ h.lineAt s i = .ok l := by
  have hl : i < (h.elems s).length := by rw [elems_length hs]; exact hi
  have e : (h.elems s)[i]? = some (h.elems s)[i] := by simp [hl]
  obtain ⟨l, h1, h2⟩ := hs.ptr _ (List.getElem_mem hl)
  refine ⟨_, l, e, h1, h2, ?_⟩
  unfold Heap.lineAt
  rw [e]
  simp only [h1]

/-- State of `ApplyMerge`'s loop before index `i`: `h1` is the memory before the loop, `done` the lines stored so far. -/
structure MergeInv (h1 : Heap) (res : Slice) (a i : Nat) (done : List Line) (H : Heap) : Prop where
  bufs : H.bufs = h1.bufs
  lines : ∀ (p : Nat) l, h1.lines[p]? = some l → H.lines[p]? = some l
  arrs : ∀ b : Nat, b ≠ a → H.arrs[b]? = h1.arrs[b]?
  alen : H.arrs.length = h1.arrs.length
  valid : H.ValidSlice res
  pre : ((H.elems res).take i).map H.load = done
  rest : ∀ j, i ≤ j → (H.elems res)[j]? = (h1.elems res)[j]?

theorem mergeInv_lineAt {h1 H : Heap} {res : Slice} {a i : Nat} {done : List Line} (ha : res.arr = some a)
    (hI : MergeInv h1 res a i done H) {c : Slice} (hc : h1.ValidSlice c) (hd : c = res ∨ c.arr ≠ some a) (hi : i < c.len) :
    H.lineAt c i = h1.lineAt c i := by
  obtain ⟨p, l, e1, e2, _, e4⟩ := lineAt_ok hc hi
  have hel : (H.elems c)[i]? = some p := by
    rcases hd with rfl | hd
    · rw [hI.rest i (Nat.le_refl i), e1]
    · rw [← e1]
      unfold Heap.elems Heap.back
      cases hb : c.arr with
      | none => rfl
      | some b =>
        have : b ≠ a := by rintro rfl; exact hd hb
        simp only [hI.arrs b this]
  rw [e4]
  unfold Heap.lineAt
  rw [hel]
  simp only [hI.lines p l e2]

theorem hMergeLines_sim (commit : Str) (h1 : Heap) (c0 : HBlame) (cs : List HBlame) (vcs : List Blame) (a : Nat)
    (ha : c0.lines.arr = some a) (hv : ∀ c ∈ cs, h1.Valid c) (hv0 : h1.Valid c0)
    (hlen : ∀ c ∈ cs, c.lines.len = c0.lines.len)
    (hd : ∀ c ∈ cs, c.lines = c0.lines ∨ c.lines.arr ≠ some a) (hvcs : cs.map h1.view = vcs) :
    ∀ (n i : Nat) (done : List Line) (H : Heap), i + n = c0.lines.len → MergeInv h1 c0.lines a i done H →
      GoRel (fun rest H' => MergeInv h1 c0.lines a (i + n) (done ++ rest) H')
        (mergeLines commit vcs i ((h1.view c0).lines.drop i)) (hMergeLines commit c0.lines cs i n H)
  | 0, i, done, H, hin, hI => by
    have : (h1.view c0).lines.drop i = [] := by
      apply List.drop_eq_nil_of_le
      simp only [Heap.view, List.length_map, elems_length hv0]; omega
    rw [this]
    simpa [mergeLines, hMergeLines, GoRel] using hI
  | n + 1, i, done, H, hin, hI => by
    have hi : i < c0.lines.len := by omega
    obtain ⟨p, own, e1, e2, e3, e4⟩ := lineAt_ok hv0 hi
    have hown : H.lineAt c0.lines i = .ok own := by
      rw [mergeInv_lineAt ha hI hv0 (Or.inl rfl) hi, e4]
    have hvl : (h1.view c0).lines[i]? = some (h1.load p) := by
      simp [Heap.view, List.getElem?_map, e1]
    have hcl : ∀ c ∈ vcs, c.lines.length = c0.lines.len := by
      intro c hc
      rw [← hvcs] at hc
      obtain ⟨c', hc', rfl⟩ := List.mem_map.1 hc
      simp only [Heap.view, List.length_map, elems_length (hv c' hc'), hlen c' hc']
    obtain ⟨ls, l1, l2⟩ := linesAt_ok vcs c0.lines.len i hcl hi
    have hdrop : (h1.view c0).lines.drop i = h1.load p :: (h1.view c0).lines.drop (i + 1) := by
      have hi' : i < (h1.view c0).lines.length := by
        rw [show (h1.view c0).lines.length = c0.lines.len by simp [Heap.view, elems_length hv0]]; exact hi
      rw [List.drop_eq_getElem_cons hi']
      congr 1
      rw [List.getElem?_eq_getElem hi'] at hvl
      exact Option.some.inj hvl
    have hcommits : cs.map (fun c => (H.lineAt c.lines i).map HLine.commit) = ls.map (fun l => .ok l.commit) := by
      have h3 : ls.map (fun l => (Except.ok l.commit : Go Str)) = (ls.map some).map (fun o => match o with
          | some (l : Line) => (Except.ok l.commit : Go Str) | none => .error (.panic "")) := by
        rw [List.map_map]; rfl
      rw [h3, l2, ← hvcs, List.map_map, List.map_map]
      refine List.map_congr_left (fun c hc => ?_)
      have hic : i < c.lines.len := by rw [hlen c hc]; exact hi
      obtain ⟨q, l, f1, f2, _, f4⟩ := lineAt_ok (hv c hc) hic
      rw [mergeInv_lineAt ha hI (hv c hc) (hd c hc) hic, f4]
      simp [Heap.view, f1, Except.map, Heap.load, f2]
    rw [hdrop]
    simp only [mergeLines, hMergeLines, l1]
    show GoRel _ (do let rest ← mergeLines commit vcs (i + 1) _; .ok (mergePick commit (h1.load p) ls :: rest)) _
    have hload : H.load p = h1.load p := by
      unfold Heap.load
      simp only [e2, hI.lines p own e2, hI.bufs]
    have hstep : ∃ H', hMergePick commit c0.lines i cs H = .ok H' ∧
        MergeInv h1 c0.lines a (i + 1) (done ++ [mergePick commit (h1.load p) ls]) H' := by
      have hHp : (H.elems c0.lines)[i]? = some p := by rw [hI.rest i (Nat.le_refl _), e1]
      have hHl : i < (H.elems c0.lines).length := by rw [elems_length hI.valid]; exact hi
      rcases hMergePick_spec commit c0.lines i a H own (h1.load p) ha hown cs ls hcommits with ⟨g1, g2⟩ | ⟨c, g1, g2⟩
      · refine ⟨H, g1, ⟨hI.bufs, hI.lines, hI.arrs, hI.alen, hI.valid, ?_, fun j hj => hI.rest j (by omega)⟩⟩
        rw [List.take_add_one, hHp, g2]
        simp [hI.pre, hload]
      · have hback : Heap.back { H with lines := H.lines ++ [{ own with commit := c }], arrs := H.arrs.set a ((H.back c0.lines).set i H.lines.length) } c0.lines
            = (H.back c0.lines).set i H.lines.length := by
          have := hI.valid.arr a ha
          simp [Heap.back, ha, this]
        have hel : Heap.elems { H with lines := H.lines ++ [{ own with commit := c }], arrs := H.arrs.set a ((H.back c0.lines).set i H.lines.length) } c0.lines
            = (H.elems c0.lines).set i H.lines.length := by
          unfold Heap.elems
          rw [hback, List.take_set]
        have hln : ∀ (p : Nat) l, H.lines[p]? = some l → (H.lines ++ [{ own with commit := c }])[p]? = some l := by
          intro p l hp
          rw [List.getElem?_append_left]; exact hp
          rcases Nat.lt_or_ge p H.lines.length with hl | hl
          · exact hl
          · simp [hl] at hp
        refine ⟨_, g1, ⟨hI.bufs, fun p l hp => hln p l (hI.lines p l hp), fun b hb => ?_, by simpa using hI.alen, ⟨?_, ?_, ?_⟩, ?_, ?_⟩⟩
        · dsimp only
          rw [List.getElem?_set_ne (Ne.symm hb)]
          exact hI.arrs b hb
        · rw [hback, List.length_set]; exact hI.valid.len
        · intro b hb
          dsimp only
          rw [List.length_set]; exact hI.valid.arr b hb
        · intro q hq
          rw [hel] at hq
          rcases List.mem_or_eq_of_mem_set hq with hq | rfl
          · obtain ⟨l, k1, k2⟩ := hI.valid.ptr q hq
            exact ⟨l, hln q l k1, k2⟩
          · refine ⟨{ own with commit := c }, by simp, ?_⟩
            dsimp only
            rw [hI.bufs]; exact e3
        · rw [hel, List.take_add_one, List.getElem?_set_self hHl, List.take_set_of_le (Nat.le_refl i), List.map_append, g2]
          congr 1
          · rw [← hI.pre]
            refine List.map_congr_left (fun q hq => ?_)
            obtain ⟨l, k1, _⟩ := hI.valid.ptr q (List.mem_of_mem_take hq)
            unfold Heap.load
            simp only [k1, hln q l k1]
          · simp [Heap.load, hI.bufs, e2]
        · intro j hj
          rw [hel, List.getElem?_set_ne (by omega)]
          exact hI.rest j (by omega)
    obtain ⟨H', g1, g2⟩ := hstep
    rw [g1]
    have ih := hMergeLines_sim commit h1 c0 cs vcs a ha hv hv0 hlen hd hvcs n (i + 1) _ H' (by omega) g2
    show GoRel _ _ (hMergeLines commit c0.lines cs (i + 1) n H')
    have : hMergeLines commit c0.lines cs (i + 1) n H' = (hMergeLines commit c0.lines cs (i + 1) n H' >>= fun x => .ok x) := by
      cases hMergeLines commit c0.lines cs (i + 1) n H' <;> rfl
    rw [this]
    refine ih.bind (fun rest H'' hH => ?_)
    simp only [GoRel]
    have e : i + (n + 1) = i + 1 + n := by omega
    rw [e]
    simpa using hH

/-- The pointer-level `ApplyMerge` refines the value-level one. -/
theorem hApplyMerge_sim (grow : Nat → Nat) (srt : List Hunk → List Hunk) (h : Heap) (parents : List HBlame)
    (diffs : List Diff) (commit : Str) (hp : ∀ p ∈ parents, h.Valid p) :
    GoRel (fun b p => Unchanged h p.1 ∧ p.1.Valid p.2 ∧ p.1.view p.2 = b)
      (applyMerge srt (parents.map h.view) diffs commit) (hApplyMerge grow srt h parents diffs commit) := by
  unfold applyMerge hApplyMerge
  have e1 : (parents.map h.view).any (·.isBinary) = parents.any (·.isBinary) := by
    rw [List.any_map]; rfl
  rw [e1]
  split
  · simp [GoRel]
  split
  · simp [GoRel]
  refine (hMergeCands_sim grow srt commit h parents diffs hp).bind (fun vcs q hq => ?_)
  obtain ⟨h1, cs⟩ := q
  dsimp only at hq ⊢
  cases cs with
  | nil =>
    have : vcs = [] := by rw [← hq.views]; rfl
    subst this
    simp [GoRel]
  | cons c0 rest =>
    have hvcs : vcs = h1.view c0 :: rest.map h1.view := by rw [← hq.views]; rfl
    have hv0 : h1.Valid c0 := hq.valid c0 (by simp)
    have hvl : ∀ c ∈ c0 :: rest, (h1.view c).lines.length = c.lines.len := fun c hc => by
      simp [Heap.view, elems_length (hq.valid c hc)]
    have hany : vcs.any (fun c => decide (c.lines.length ≠ (h1.view c0).lines.length))
        = (c0 :: rest).any (fun c => decide (c.lines.len ≠ c0.lines.len)) := by
      rw [← hq.views, List.any_map, Bool.eq_iff_iff, List.any_eq_true, List.any_eq_true]
      constructor
      · rintro ⟨c, hc, he⟩
        refine ⟨c, hc, ?_⟩
        simpa [hvl c hc, hvl c0 (by simp)] using he
      · rintro ⟨c, hc, he⟩
        refine ⟨c, hc, ?_⟩
        simpa [hvl c hc, hvl c0 (by simp)] using he
    subst hvcs
    dsimp only at hany ⊢
    rw [hany]
    split
    · simp [GoRel]
    · rename_i hne
      have hlen : ∀ c ∈ c0 :: rest, c.lines.len = c0.lines.len := by
        intro c hc
        rcases Nat.decEq c.lines.len c0.lines.len with h | h
        · exact absurd (List.any_eq_true.2 ⟨c, hc, by simpa using h⟩) hne
        · exact h
      have hfin : GoRel (fun (lines : List Line) H => Unchanged h H ∧ H.Valid c0 ∧ H.view c0 = { h1.view c0 with lines := lines })
          (mergeLines commit (h1.view c0 :: rest.map h1.view) 0 (h1.view c0).lines)
          (hMergeLines commit c0.lines (c0 :: rest) 0 c0.lines.len h1) := by
        cases ha : c0.lines.arr with
        | none =>
          have hl0 : c0.lines.len = 0 := by
            have := hv0.len
            simpa [Heap.back, ha] using this
          have hvn : (h1.view c0).lines = [] := List.length_eq_zero_iff.1 (by rw [hvl c0 (by simp), hl0])
          rw [hl0, hvn]
          simp only [mergeLines, hMergeLines, GoRel]
          refine ⟨hq.unch, hv0, ?_⟩
          rw [← hvn]
        | some a =>
          have hd : ∀ c ∈ c0 :: rest, c.lines = c0.lines ∨ c.lines.arr ≠ some a := by
            intro c hc
            rcases List.mem_cons.1 hc with rfl | hc
            · exact Or.inl rfl
            · have := (List.pairwise_cons.1 hq.distinct).1 c hc
              exact Or.inr (fun hca => this a a ha hca rfl)
          have hI : MergeInv h1 c0.lines a 0 [] h1 :=
            ⟨rfl, fun _ _ h => h, fun _ _ => rfl, rfl, hv0, by simp, fun _ _ => rfl⟩
          have hm := hMergeLines_sim commit h1 c0 (c0 :: rest) (h1.view c0 :: rest.map h1.view) a ha hq.valid hv0 hlen hd rfl
            c0.lines.len 0 [] h1 (by omega) hI
          rw [List.drop_zero] at hm
          generalize mergeLines commit (h1.view c0 :: rest.map h1.view) 0 (h1.view c0).lines = x at hm ⊢
          generalize hMergeLines commit c0.lines (c0 :: rest) 0 c0.lines.len h1 = y at hm ⊢
          cases x with
          | error e => cases y <;> simpa [GoRel] using hm
          | ok lines =>
            cases y with
            | error e => simpa [GoRel] using hm
            | ok H =>
              simp only [GoRel] at hm ⊢
              refine ⟨?_, hm.valid, ?_⟩
              · refine ⟨fun i x e => by rw [hm.bufs]; exact hq.unch.bufs i x e,
                  fun i x e => hm.lines i x (hq.unch.lines i x e), fun i x e => ?_⟩
                have hi : i < h.arrs.length := by
                  rcases Nat.lt_or_ge i h.arrs.length with hl | hl
                  · exact hl
                  · simp [hl] at e
                have := hq.owned c0 (by simp) a ha
                rw [hm.arrs i (by omega)]
                exact hq.unch.arrs i x e
              · have hpre := hm.pre
                rw [Nat.zero_add, List.take_of_length_le (by rw [elems_length hm.valid]; exact Nat.le_refl _)] at hpre
                unfold Heap.view
                dsimp only
                rw [hpre]
                rfl
      refine hfin.bind (fun lines H hH => ?_)
      simp only [GoRel]
      exact ⟨hH.1, hH.2.1, hH.2.2⟩

end Ripsrc
