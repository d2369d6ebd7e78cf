import Verif.Spec.Checkpoint
import Verif.Lib.Disk
/-!
# Lemmas on the checkpoint writer and reader
-/
namespace Ripsrc
open Spec

/-! ## Pointers -/

theorem ofNat_succ (n : Nat) : UInt64.ofNat n + 1 = UInt64.ofNat (n + 1) := by
  rw [UInt64.ofNat_add]; rfl

theorem ofNat_inj {i j : Nat} (hi : i < 2 ^ 64) (hj : j < 2 ^ 64) (h : UInt64.ofNat i = UInt64.ofNat j) : i = j := by
  have := congrArg UInt64.toNat h
  rw [UInt64.toNat_ofNat', UInt64.toNat_ofNat', Nat.mod_eq_of_lt hi, Nat.mod_eq_of_lt hj] at this
  exact this

/-- The pointer numbers given to the addresses `xs` so far. -/
structure Idx (xs : List Nat) (m : GoMap Nat UInt64) (c : UInt64) : Prop where
  nodup : xs.Nodup
  counter : c = UInt64.ofNat xs.length
  ptr : ∀ (i : Nat) x, xs[i]? = some x → GoMap.get m x = some (UInt64.ofNat (i + 1))
  absent : ∀ x, x ∉ xs → GoMap.get m x = none

theorem Idx.empty : Idx [] [] 0 := ⟨List.nodup_nil, rfl, by simp, by simp⟩

theorem Idx.push {xs : List Nat} {m : GoMap Nat UInt64} {c : UInt64} (h : Idx xs m c) {x : Nat} (hx : x ∉ xs) :
    Idx (xs ++ [x]) (GoMap.set m x (c + 1)) (c + 1) := by
  have hc : c + 1 = UInt64.ofNat (xs.length + 1) := by rw [h.counter, ofNat_succ]
  refine ⟨?_, ?_, ?_, ?_⟩
  · rw [List.nodup_append]
    refine ⟨h.nodup, by simp, ?_⟩
    intro a ha b hb hab
    simp at hb
    subst hb; subst hab
    exact hx ha
  · rw [hc]; simp
  · intro i y hy
    rw [GoMap.get_set]
    by_cases hxy : x = y
    · subst hxy
      rw [if_pos rfl, hc]
      by_cases hi : i < xs.length
      · rw [List.getElem?_append_left hi] at hy
        exact absurd (List.mem_of_getElem? hy) hx
      · have : i = xs.length := by
          have := (List.getElem?_eq_some_iff.1 hy).1
          simp at this; omega
        rw [this]
    · rw [if_neg hxy]
      by_cases hi : i < xs.length
      · rw [List.getElem?_append_left hi] at hy
        exact h.ptr i y hy
      · rw [List.getElem?_append_right (by omega)] at hy
        have := List.mem_of_getElem? hy
        simp at this
        exact absurd this.symm hxy
  · intro y hy
    simp at hy
    rw [GoMap.get_set_ne _ _ (fun hh => hy.2 hh.symm)]
    exact h.absent y hy.1

theorem Idx.get_some {xs : List Nat} {m : GoMap Nat UInt64} {c : UInt64} (h : Idx xs m c) {x : Nat} {p : UInt64} (hg : GoMap.get m x = some p) :
    x ∈ xs := Classical.byContradiction (fun hx => by rw [h.absent x hx] at hg; cases hg)

theorem Idx.get_none {xs : List Nat} {m : GoMap Nat UInt64} {c : UInt64} (h : Idx xs m c) {x : Nat} (hg : GoMap.get m x = none) : x ∉ xs := by
  intro hx
  obtain ⟨i, hi⟩ := List.getElem?_of_mem hx
  rw [h.ptr i x hi] at hg; cases hg

/-- The number of an address. -/
def ptrOf (m : GoMap Nat UInt64) (x : Nat) : UInt64 := (GoMap.get m x).getD 0

theorem Idx.ptrOf_eq {xs : List Nat} {m : GoMap Nat UInt64} {c : UInt64} (h : Idx xs m c) {i x : Nat} (hi : xs[i]? = some x) :
    ptrOf m x = UInt64.ofNat (i + 1) := by rw [ptrOf, h.ptr i x hi]; rfl

/-- Numbers do not change when more addresses are numbered. -/
theorem Idx.stable {xs ys : List Nat} {m m' : GoMap Nat UInt64} {c c' : UInt64} (h : Idx xs m c) (h' : Idx (xs ++ ys) m' c') {x : Nat} (hx : x ∈ xs) :
    ptrOf m' x = ptrOf m x := by
  obtain ⟨i, hi⟩ := List.getElem?_of_mem hx
  have hlt := (List.getElem?_eq_some_iff.1 hi).1
  rw [h.ptrOf_eq hi, h'.ptrOf_eq (i := i) (by rw [List.getElem?_append_left hlt, hi])]

theorem Idx.inj {xs : List Nat} {m : GoMap Nat UInt64} {c : UInt64} (h : Idx xs m c) (hb : xs.length < 2 ^ 64 - 1) {x y : Nat} (hx : x ∈ xs) (hy : y ∈ xs)
    (he : ptrOf m x = ptrOf m y) : x = y := by
  obtain ⟨i, hi⟩ := List.getElem?_of_mem hx
  obtain ⟨j, hj⟩ := List.getElem?_of_mem hy
  have h1 := (List.getElem?_eq_some_iff.1 hi).1
  have h2 := (List.getElem?_eq_some_iff.1 hj).1
  rw [h.ptrOf_eq hi, h.ptrOf_eq hj] at he
  have := ofNat_inj (by omega) (by omega) he
  have : i = j := by omega
  subst this
  rw [hi] at hj
  exact Option.some.inj hj

/-! ## Lines -/

section
variable (hash : Str → UInt64) (mem : Mem)

/-- The record of a line. -/
def lineRec (m : GoMap Nat UInt64) (l : Nat) : DLine :=
  { pointer := ptrOf m l, commit := (mem.line l).commit, lineDataPointer := hash (mem.line l).line }

/-- State of the writer with respect to lines: those with addresses `ls` were written. -/
structure LInv (ls : List Nat) (s : WrSt) : Prop where
  idx : Idx ls s.linePointers s.linePointerC
  lines : s.out.lines = ls.map (lineRec hash mem s.linePointers)
  data : ∀ dp, (GoMap.get s.lineData dp).getD false = true ↔ ∃ l ∈ ls, hash (mem.line l).line = dp
  stored : ∀ l ∈ ls, ∃ r ∈ s.out.lineData, r.pointer = hash (mem.line l).line
  origin : ∀ r ∈ s.out.lineData, ∃ l ∈ ls, r = { pointer := hash (mem.line l).line, data := (mem.line l).line }
  uniq : (s.out.lineData.map (·.pointer)).Nodup

/-- Nothing but lines was written. -/
structure SameOther (s s' : WrSt) : Prop where
  bc : s'.blamePointerC = s.blamePointerC
  bp : s'.blamePointers = s.blamePointers
  rows : s'.out.rows = s.out.rows
  blames : s'.out.blames = s.out.blames

theorem SameOther.trans {a b c : WrSt} (h : SameOther a b) (h' : SameOther b c) : SameOther a c :=
  ⟨h'.bc.trans h.bc, h'.bp.trans h.bp, h'.rows.trans h.rows, h'.blames.trans h.blames⟩

theorem lineRec_push {ls : List Nat} {m : GoMap Nat UInt64} {c : UInt64} (h : Idx ls m c) {l : Nat} (hl : l ∉ ls) :
    ls.map (lineRec hash mem (GoMap.set m l (c + 1))) = ls.map (lineRec hash mem m) := by
  refine List.map_congr_left (fun x hx => ?_)
  unfold lineRec
  rw [h.stable (h.push hl) hx]

variable {hash mem}

theorem writeLine_inv {ls : List Nat} {s : WrSt} (h : LInv hash mem ls s) (l : Nat) :
    ∃ ls', LInv hash mem (ls ++ ls') (writeLine hash mem s l).1 ∧ l ∈ ls ++ ls' ∧ (∀ x ∈ ls', x = l) ∧
      (writeLine hash mem s l).2 = ptrOf (writeLine hash mem s l).1.linePointers l ∧ SameOther s (writeLine hash mem s l).1 := by
  unfold writeLine
  cases hg : GoMap.get s.linePointers l with
  | some lp =>
    refine ⟨[], by simpa using h, by simpa using h.idx.get_some hg, by simp, ?_, ⟨rfl, rfl, rfl, rfl⟩⟩
    simp only
    rw [ptrOf, hg]; rfl
  | none =>
    have hl := h.idx.get_none hg
    have hp := h.idx.push hl
    have hrec : [({ pointer := s.linePointerC + 1, commit := (mem.line l).commit, lineDataPointer := hash (mem.line l).line } : DLine)] =
        [l].map (lineRec hash mem (GoMap.set s.linePointers l (s.linePointerC + 1))) := by
      simp [lineRec, ptrOf]
    refine ⟨[l], ?_, by simp, by simp, ?_, ?_⟩
    · by_cases hd : (GoMap.get s.lineData (hash (mem.line l).line)).getD false = true
      · simp only [hd, if_true]
        obtain ⟨l0, hl0, he0⟩ := (h.data _).1 hd
        refine ⟨hp, ?_, ?_, ?_, ?_, h.uniq⟩
        · rw [List.map_append, lineRec_push hash mem h.idx hl, ← h.lines, ← hrec]
        · intro dp
          rw [h.data]
          constructor
          · rintro ⟨x, hx, he⟩; exact ⟨x, by simp [hx], he⟩
          · rintro ⟨x, hx, he⟩
            rcases List.mem_append.1 hx with hx | hx
            · exact ⟨x, hx, he⟩
            · simp at hx; subst hx; exact ⟨l0, hl0, he0.trans he⟩
        · intro x hx
          rcases List.mem_append.1 hx with hx | hx
          · exact h.stored x hx
          · simp at hx; subst hx
            obtain ⟨r, hr, he⟩ := h.stored l0 hl0
            exact ⟨r, hr, he.trans he0⟩
        · intro r hr
          obtain ⟨x, hx, he⟩ := h.origin r hr
          exact ⟨x, by simp [hx], he⟩
      · have hd' : ¬ ∃ l' ∈ ls, hash (mem.line l').line = hash (mem.line l).line := fun hh => hd ((h.data _).2 hh)
        simp only [hd, if_false, Bool.false_eq_true]
        refine ⟨hp, ?_, ?_, ?_, ?_, ?_⟩
        · rw [List.map_append, lineRec_push hash mem h.idx hl, ← h.lines, ← hrec]
        · intro dp
          rw [GoMap.get_set]
          by_cases he : hash (mem.line l).line = dp
          · rw [if_pos he]
            simp only [Option.getD_some, true_iff]
            exact ⟨l, by simp, he⟩
          · rw [if_neg he, h.data]
            constructor
            · rintro ⟨x, hx, hxe⟩; exact ⟨x, by simp [hx], hxe⟩
            · rintro ⟨x, hx, hxe⟩
              rcases List.mem_append.1 hx with hx | hx
              · exact ⟨x, hx, hxe⟩
              · simp at hx; subst hx; exact absurd hxe he
        · intro x hx
          rcases List.mem_append.1 hx with hx | hx
          · obtain ⟨r, hr, he⟩ := h.stored x hx
            exact ⟨r, by simp [hr], he⟩
          · simp at hx; subst hx
            exact ⟨_, List.mem_append_right _ (List.mem_singleton.2 rfl), rfl⟩
        · intro r hr
          rcases List.mem_append.1 hr with hr | hr
          · obtain ⟨x, hx, he⟩ := h.origin r hr
            exact ⟨x, by simp [hx], he⟩
          · exact ⟨l, by simp, List.mem_singleton.1 hr⟩
        · rw [List.map_append, List.nodup_append]
          refine ⟨h.uniq, by simp, ?_⟩
          intro a ha b hb hab
          simp at hb
          subst hb; subst hab
          obtain ⟨r, hr, he⟩ := List.mem_map.1 ha
          obtain ⟨x, hx, hre⟩ := h.origin r hr
          exact hd' ⟨x, hx, by rw [← he, hre]⟩
    · by_cases hd : (GoMap.get s.lineData (hash (mem.line l).line)).getD false = true
      · simp only [hd, if_true]; simp [ptrOf]
      · simp only [hd, if_false, Bool.false_eq_true]; simp [ptrOf]
    · by_cases hd : (GoMap.get s.lineData (hash (mem.line l).line)).getD false = true
      · simp only [hd, if_true]; exact ⟨rfl, rfl, rfl, rfl⟩
      · simp only [hd, if_false, Bool.false_eq_true]; exact ⟨rfl, rfl, rfl, rfl⟩

theorem writeLines_inv (L : List Nat) {ls : List Nat} {s : WrSt} (h : LInv hash mem ls s) :
    ∃ ls', LInv hash mem (ls ++ ls') (writeLines hash mem s L).1 ∧ (∀ l ∈ L, l ∈ ls ++ ls') ∧ (∀ x ∈ ls', x ∈ L) ∧
      (writeLines hash mem s L).2 = L.map (ptrOf (writeLines hash mem s L).1.linePointers) ∧ SameOther s (writeLines hash mem s L).1 := by
  induction L generalizing ls s with
  | nil => exact ⟨[], by simpa [writeLines] using h, by simp, by simp, rfl, ⟨rfl, rfl, rfl, rfl⟩⟩
  | cons l L ih =>
    obtain ⟨l1, h1, hm1, hs1, he1, ho1⟩ := writeLine_inv h l
    obtain ⟨l2, h2, hm2, hs2, he2, ho2⟩ := ih h1
    rw [List.append_assoc] at h2 hm2
    refine ⟨l1 ++ l2, h2, ?_, ?_, ?_, ho1.trans ho2⟩
    · intro x hx
      rcases List.mem_cons.1 hx with rfl | hx
      · rw [← List.append_assoc]
        exact List.mem_append_left _ hm1
      · exact hm2 x hx
    · intro x hx
      rcases List.mem_append.1 hx with hx | hx
      · simp [hs1 x hx]
      · simp [hs2 x hx]
    · show (writeLine hash mem s l).2 :: (writeLines hash mem (writeLine hash mem s l).1 L).2 = _
      rw [he2, he1, List.map_cons]
      congr 1
      rw [← List.append_assoc] at h2
      exact (h1.idx.stable h2.idx hm1).symm

/-! ## Blames and rows -/

variable (mem) in
/-- The record of a blame. -/
def blameRec (bm lm : GoMap Nat UInt64) (b : Nat) : DBlame :=
  { pointer := ptrOf bm b, commit := (mem.blame b).commit, linePointers := (mem.blame b).lines.map (ptrOf lm), isBinary := (mem.blame b).isBinary }

/-- A visited file: commit, path, pointer to its blame. -/
abbrev Visit := Str × Str × Nat

/-- The record of a file. -/
def rowRec (bm : GoMap Nat UInt64) (v : Visit) : DRow := { commit := v.1, path := v.2.1, blamePointer := ptrOf bm v.2.2 }

variable (hash mem) in
/-- State of the writer after the files `vs`. -/
structure WInv (vs : List Visit) (bs ls : List Nat) (s : WrSt) : Prop where
  line : LInv hash mem ls s
  idx : Idx bs s.blamePointers s.blamePointerC
  blames : s.out.blames = bs.map (blameRec mem s.blamePointers s.linePointers)
  rows : s.out.rows = vs.map (rowRec s.blamePointers)
  visited : ∀ v ∈ vs, v.2.2 ∈ bs
  known : ∀ b ∈ bs, ∀ l ∈ (mem.blame b).lines, l ∈ ls
  bsub : ∀ b ∈ bs, ∃ v ∈ vs, v.2.2 = b
  lsub : ∀ l ∈ ls, ∃ b ∈ bs, l ∈ (mem.blame b).lines

theorem WInv.start : WInv hash mem [] [] [] {} :=
  ⟨⟨Idx.empty, rfl, by simp, by simp, by simp, by simp⟩, Idx.empty, rfl, rfl, by simp, by simp, by simp, by simp⟩

theorem writeFile_inv {vs : List Visit} {bs ls : List Nat} {s : WrSt} (h : WInv hash mem vs bs ls s) (c f : Str) (b : Nat) :
    ∃ bs' ls', WInv hash mem (vs ++ [(c, f, b)]) bs' ls' (writeFile hash mem c s f b) := by
  unfold writeFile
  cases hg : GoMap.get s.blamePointers b with
  | some bp =>
    have hb := h.idx.get_some hg
    refine ⟨bs, ls, ⟨h.line.idx, h.line.lines, h.line.data, h.line.stored, h.line.origin, h.line.uniq⟩, h.idx, h.blames, ?_, ?_, h.known, ?_, h.lsub⟩
    · simp only [writeRow, List.map_append, h.rows]
      simp [rowRec, ptrOf, hg]
    · intro v hv
      rcases List.mem_append.1 hv with hv | hv
      · exact h.visited v hv
      · simp at hv; subst hv; exact hb
    · intro x hx
      obtain ⟨v, hv, he⟩ := h.bsub x hx
      exact ⟨v, by simp [hv], he⟩
  | none =>
    have hb := h.idx.get_none hg
    have hp := h.idx.push hb
    have h0 : LInv hash mem ls { s with blamePointerC := s.blamePointerC + 1, blamePointers := GoMap.set s.blamePointers b (s.blamePointerC + 1) } :=
      ⟨h.line.idx, h.line.lines, h.line.data, h.line.stored, h.line.origin, h.line.uniq⟩
    obtain ⟨l1, h1, hm1, hs1, he1, ho1⟩ := writeLines_inv (mem.blame b).lines h0
    simp only
    generalize hw : writeLines hash mem { s with blamePointerC := s.blamePointerC + 1, blamePointers := GoMap.set s.blamePointers b (s.blamePointerC + 1) }
      (mem.blame b).lines = w at h1 he1 ho1
    obtain ⟨s', lps⟩ := w
    simp only at h1 he1 ho1 ⊢
    have hob := ho1.bp
    have hoc := ho1.bc
    simp only at hob hoc
    refine ⟨bs ++ [b], ls ++ l1, ⟨h1.idx, h1.lines, h1.data, h1.stored, h1.origin, h1.uniq⟩, ?_, ?_, ?_, ?_, ?_, ?_, ?_⟩
    · show Idx (bs ++ [b]) s'.blamePointers s'.blamePointerC
      rw [hob, hoc]; exact hp
    · show s'.out.blames ++ _ = List.map (blameRec mem s'.blamePointers s'.linePointers) (bs ++ [b])
      rw [ho1.blames, h.blames, List.map_append]
      congr 1
      · refine List.map_congr_left (fun x hx => ?_)
        unfold blameRec
        rw [hob, h.idx.stable hp hx]
        congr 1
        refine List.map_congr_left (fun l hl => ?_)
        exact (h.line.idx.stable h1.idx (h.known x hx l hl)).symm
      · simp [blameRec, he1, hob, ptrOf]
    · show s'.out.rows ++ _ = _
      rw [ho1.rows, List.map_append]
      show s.out.rows ++ _ = _
      rw [h.rows]
      congr 1
      · refine List.map_congr_left (fun v hv => ?_)
        show rowRec s.blamePointers v = rowRec s'.blamePointers v
        unfold rowRec
        rw [hob, h.idx.stable hp (h.visited v hv)]
      · show _ = [rowRec s'.blamePointers (c, f, b)]
        simp [rowRec, hob, ptrOf]
    · intro v hv
      rcases List.mem_append.1 hv with hv | hv
      · simp [h.visited v hv]
      · simp at hv; subst hv; simp
    · intro x hx l hl
      rcases List.mem_append.1 hx with hx | hx
      · simp [h.known x hx l hl]
      · simp at hx; subst hx; exact hm1 l hl
    · intro x hx
      rcases List.mem_append.1 hx with hx | hx
      · obtain ⟨v, hv, he⟩ := h.bsub x hx
        exact ⟨v, by simp [hv], he⟩
      · simp at hx; subst hx; exact ⟨(c, f, x), by simp, rfl⟩
    · intro l hl
      rcases List.mem_append.1 hl with hl | hl
      · obtain ⟨x, hx, he⟩ := h.lsub l hl
        exact ⟨x, by simp [hx], he⟩
      · exact ⟨b, by simp, hs1 l hl⟩

theorem writeFiles_inv (ws : List Visit) {vs : List Visit} {bs ls : List Nat} {s : WrSt} (h : WInv hash mem vs bs ls s) :
    ∃ bs' ls', WInv hash mem (vs ++ ws) bs' ls' (ws.foldl (fun s v => writeFile hash mem v.1 s v.2.1 v.2.2) s) := by
  induction ws generalizing vs bs ls s with
  | nil => exact ⟨bs, ls, by simpa using h⟩
  | cons v ws ih =>
    obtain ⟨b1, l1, h1⟩ := writeFile_inv h v.1 v.2.1 v.2.2
    obtain ⟨b2, l2, h2⟩ := ih h1
    exact ⟨b2, l2, by rw [List.append_assoc] at h2; exact h2⟩

/-! ## Reading records -/

theorem get_foldl_set {κ α β : Type} [DecidableEq κ] (k : α → κ) (v : α → β) (l : List α) (m : GoMap κ β) (hn : (l.map k).Nodup) {a : α} (ha : a ∈ l) :
    GoMap.get (l.foldl (fun m r => GoMap.set m (k r) (v r)) m) (k a) = some (v a) := by
  have hkeep : ∀ (l : List α) (m : GoMap κ β) x, x ∉ l.map k → GoMap.get (l.foldl (fun m r => GoMap.set m (k r) (v r)) m) x = GoMap.get m x := by
    intro l
    induction l with
    | nil => intros; rfl
    | cons b l ih =>
      intro m x hx
      simp only [List.map_cons, List.mem_cons, not_or] at hx
      rw [List.foldl_cons, ih _ _ hx.2, GoMap.get_set_ne _ _ (fun hh => hx.1 hh.symm)]
  induction l generalizing m with
  | nil => cases ha
  | cons b l ih =>
    rw [List.foldl_cons]
    rw [List.map_cons, List.nodup_cons] at hn
    rcases List.mem_cons.1 ha with rfl | ha
    · rw [hkeep _ _ _ hn.1, GoMap.get_set_self]
    · exact ih _ hn.2 ha

theorem foldlM_pure {σ α : Type} {f : σ → α → Go σ} {g : σ → α → σ} (l : List α) (h : ∀ a ∈ l, ∀ s, f s a = .ok (g s a)) (s : σ) :
    l.foldlM f s = .ok (l.foldl g s) := by
  induction l generalizing s with
  | nil => rfl
  | cons a l ih =>
    rw [List.foldlM_cons, h a (by simp) s]
    exact ih (fun b hb => h b (by simp [hb])) _

/-- The lines that are read back. -/
theorem loadLines_ok {ls : List Nat} {s : WrSt} (h : LInv hash mem ls s) (hb : ls.length < 2 ^ 64 - 1)
    (hc : ∀ l ∈ ls, ∀ l' ∈ ls, hash (mem.line l).line = hash (mem.line l').line → (mem.line l).line = (mem.line l').line) :
    ∃ m, loadLines (loadLineData s.out.lineData) s.out.lines = .ok m ∧ ∀ l ∈ ls, GoMap.get m (ptrOf s.linePointers l) = some (mem.line l) := by
  have hd : ∀ l ∈ ls, GoMap.get (loadLineData s.out.lineData) (hash (mem.line l).line) = some (mem.line l).line := by
    intro l hl
    obtain ⟨r, hr, hre⟩ := h.stored l hl
    have hg := get_foldl_set (·.pointer) (·.data) s.out.lineData [] h.uniq hr
    obtain ⟨x, hx, he⟩ := h.origin r hr
    rw [hre] at hg
    rw [loadLineData, hg, he]
    congr 1
    refine hc x hx l hl ?_
    rw [← hre, he]
  have hg : ∀ r ∈ s.out.lines, ∃ l ∈ ls, r = lineRec hash mem s.linePointers l := by
    intro r hr
    rw [h.lines] at hr
    obtain ⟨l, hl, he⟩ := List.mem_map.1 hr
    exact ⟨l, hl, he.symm⟩
  refine ⟨s.out.lines.foldl (fun m r => GoMap.set m r.pointer
      { line := (GoMap.get (loadLineData s.out.lineData) r.lineDataPointer).getD [], commit := r.commit }) [], ?_, ?_⟩
  · refine foldlM_pure _ ?_ []
    intro r hr m
    obtain ⟨l, hl, he⟩ := hg r hr
    subst he
    simp only [lineRec]
    rw [hd l hl]
    rfl
  · intro l hl
    have hmem : lineRec hash mem s.linePointers l ∈ s.out.lines := by rw [h.lines]; exact List.mem_map_of_mem hl
    have hnd : (s.out.lines.map (·.pointer)).Nodup := by
      rw [h.lines, List.map_map]
      refine List.pairwise_map.2 (h.idx.nodup.imp_of_mem ?_)
      intro a b ha hbm hab heq
      exact hab (h.idx.inj hb ha hbm heq)
    have := get_foldl_set (·.pointer) (fun r : DLine => ({ line := (GoMap.get (loadLineData s.out.lineData) r.lineDataPointer).getD [], commit := r.commit } : Line))
      s.out.lines [] hnd hmem
    simp only [lineRec] at this
    rw [this, hd l hl]
    rfl

theorem loadBlameLines_ok {m : GoMap UInt64 Line} {lm : GoMap Nat UInt64} (L : List Nat) (h : ∀ l ∈ L, GoMap.get m (ptrOf lm l) = some (mem.line l)) :
    loadBlameLines m (L.map (ptrOf lm)) = .ok (L.map mem.line) := by
  induction L with
  | nil => rfl
  | cons l L ih =>
    rw [List.map_cons, loadBlameLines, h l (by simp)]
    simp only [ih (fun x hx => h x (by simp [hx]))]
    rfl

theorem loadBlames_ok {vs : List Visit} {bs ls : List Nat} {s : WrSt} (h : WInv hash mem vs bs ls s) (hb : bs.length < 2 ^ 64 - 1) {m : GoMap UInt64 Line}
    (hm : ∀ l ∈ ls, GoMap.get m (ptrOf s.linePointers l) = some (mem.line l)) :
    ∃ bm, loadBlames m s.out.blames = .ok bm ∧ ∀ b ∈ bs, GoMap.get bm (ptrOf s.blamePointers b) = some (viewBlame mem b) := by
  have hl : ∀ b ∈ bs, loadBlameLines m (blameRec mem s.blamePointers s.linePointers b).linePointers = .ok ((mem.blame b).lines.map mem.line) := by
    intro b hb
    exact loadBlameLines_ok _ (fun l hl => hm l (h.known b hb l hl))
  let val : DBlame → Blame := fun r => { commit := r.commit, lines := (loadBlameLines m r.linePointers).toOption.getD [], isBinary := r.isBinary }
  refine ⟨s.out.blames.foldl (fun bm r => GoMap.set bm r.pointer (val r)) [], ?_, ?_⟩
  · refine foldlM_pure _ ?_ []
    intro r hr bm
    rw [h.blames] at hr
    obtain ⟨b, hbm, rfl⟩ := List.mem_map.1 hr
    simp only [val, hl b hbm]
    rfl
  · intro b hbm
    have hmem : blameRec mem s.blamePointers s.linePointers b ∈ s.out.blames := by rw [h.blames]; exact List.mem_map_of_mem hbm
    have hnd : (s.out.blames.map (·.pointer)).Nodup := by
      rw [h.blames, List.map_map]
      refine List.pairwise_map.2 (h.idx.nodup.imp_of_mem ?_)
      intro a b ha hbm hab heq
      exact hab (h.idx.inj hb ha hbm heq)
    have := get_foldl_set (·.pointer) val s.out.blames [] hnd hmem
    simp only [blameRec, val] at this
    rw [this]
    have := hl b hbm
    simp only [blameRec] at this
    rw [this]
    rfl

/-- One row that is read back. -/
def putRow (mem : Mem) (R : Repo) (v : Visit) : Repo :=
  GoMap.set R v.1 (GoMap.set ((GoMap.get R v.1).getD []) v.2.1 (viewBlame mem v.2.2))

theorem loadRows_ok {vs : List Visit} {bs ls : List Nat} {s : WrSt} (h : WInv hash mem vs bs ls s) {bm : GoMap UInt64 Blame}
    (hm : ∀ b ∈ bs, GoMap.get bm (ptrOf s.blamePointers b) = some (viewBlame mem b)) :
    loadRows bm s.out.rows = .ok (vs.foldl (putRow mem) []) := by
  unfold loadRows
  rw [h.rows, List.foldlM_map]
  refine foldlM_pure _ ?_ []
  intro v hv R
  simp only [rowRec]
  rw [hm _ (h.visited v hv)]
  rfl

/-- What the rows that were read back contain. -/
theorem putRows_get (vs : List Visit) (hn : (vs.map (fun v => (v.1, v.2.1))).Nodup) :
    (∀ c, GoMap.get (vs.foldl (putRow mem) []) c = none ↔ ∀ v ∈ vs, v.1 ≠ c) ∧
    ∀ c fs, GoMap.get (vs.foldl (putRow mem) []) c = some fs → ∀ f,
      (∀ b, (c, f, b) ∈ vs → GoMap.get fs f = some (viewBlame mem b)) ∧ ((∀ b, (c, f, b) ∉ vs) → GoMap.get fs f = none) := by
  have key : ∀ rs : List Visit, (rs.map (fun v => (v.1, v.2.1))).Nodup →
      (∀ c, GoMap.get (rs.foldr (fun v R => putRow mem R v) []) c = none ↔ ∀ v ∈ rs, v.1 ≠ c) ∧
      ∀ c fs, GoMap.get (rs.foldr (fun v R => putRow mem R v) []) c = some fs → ∀ f,
        (∀ b, (c, f, b) ∈ rs → GoMap.get fs f = some (viewBlame mem b)) ∧ ((∀ b, (c, f, b) ∉ rs) → GoMap.get fs f = none) := by
    intro rs
    induction rs with
    | nil => intro _; simp
    | cons v rs ih =>
      intro hn
      rw [List.map_cons, List.nodup_cons] at hn
      obtain ⟨i1, i2⟩ := ih hn.2
      rw [List.foldr_cons]
      generalize hR : rs.foldr (fun v R => putRow mem R v) [] = R at i1 i2 ⊢
      obtain ⟨vc, vf, vb⟩ := v
      constructor
      · intro c
        simp only [putRow, GoMap.get_set]
        by_cases hc : vc = c
        · simp [hc]
        · rw [if_neg hc, i1]
          simp [hc]
      · intro c fs hfs f
        simp only [putRow, GoMap.get_set] at hfs
        by_cases hc : vc = c
        · subst hc
          rw [if_pos rfl] at hfs
          injection hfs with hfs
          subst hfs
          rw [GoMap.get_set]
          by_cases hf : vf = f
          · subst hf
            rw [if_pos rfl]
            constructor
            · intro b hb
              rcases List.mem_cons.1 hb with hb | hb
              · injection hb with _ hb; injection hb with _ hb; rw [hb]
              · exact absurd (List.mem_map.2 ⟨_, hb, rfl⟩) hn.1
            · intro hb
              exact absurd (List.mem_cons_self) (hb vb)
          · rw [if_neg hf]
            have hrest : (∀ b, (vc, f, b) ∈ rs → GoMap.get ((GoMap.get R vc).getD []) f = some (viewBlame mem b)) ∧
                ((∀ b, (vc, f, b) ∉ rs) → GoMap.get ((GoMap.get R vc).getD []) f = none) := by
              cases hg : GoMap.get R vc with
              | none =>
                refine ⟨fun b hb => ?_, fun _ => rfl⟩
                exact absurd rfl ((i1 vc).1 hg _ hb)
              | some fs0 => exact i2 vc fs0 hg f
            refine ⟨fun b hb => hrest.1 b ?_, fun hb => hrest.2 (fun b hbm => hb b (List.mem_cons_of_mem _ hbm))⟩
            rcases List.mem_cons.1 hb with hb | hb
            · injection hb with _ hb; injection hb with hb _; exact absurd hb.symm hf
            · exact hb
        · rw [if_neg hc] at hfs
          obtain ⟨j1, j2⟩ := i2 c fs hfs f
          refine ⟨fun b hb => j1 b ?_, fun hb => j2 (fun b hbm => hb b (List.mem_cons_of_mem _ hbm))⟩
          rcases List.mem_cons.1 hb with hb | hb
          · injection hb with hb _; exact absurd hb.symm hc
          · exact hb
  have := key vs.reverse (by rw [List.map_reverse]; exact List.pairwise_reverse.2 (hn.imp (fun h => h.symm)))
  rw [List.foldr_reverse] at this
  simpa using this

end
end Ripsrc
