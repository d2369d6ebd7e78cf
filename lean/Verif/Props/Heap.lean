import Verif.Lib.Heap
/-!
# C54: previously emitted blames are never modified

Statements about the pointer-level model (`Model/Heap.lean`), for every memory, every growth policy of `append` and every
sort.
-/
namespace Ripsrc

/-- A program that holds the blames `ks` and goes on to call `Apply` / `ApplyMerge` on blames it holds. `other` stands for
code that only allocates (reading a checkpoint, building a blame from `git blame`). -/
inductive Calls (grow : Nat → Nat) (srt : List Hunk → List Hunk) : Heap → List HBlame → Heap → List HBlame → Prop
  | done (h : Heap) (ks : List HBlame) : Calls grow srt h ks h ks
  | apply {h h' h'' : Heap} {ks ks' : List HBlame} (file b : HBlame) (d : Diff) (c : Str) (hf : file ∈ ks)
      (hc : hApply grow srt h file d c = .ok (h', b)) (hr : Calls grow srt h' (b :: ks) h'' ks') :
      Calls grow srt h ks h'' ks'
  | merge {h h' h'' : Heap} {ks ks' : List HBlame} (ps : List HBlame) (b : HBlame) (ds : List Diff) (c : Str)
      (hf : ∀ p ∈ ps, p ∈ ks) (hc : hApplyMerge grow srt h ps ds c = .ok (h', b))
      (hr : Calls grow srt h' (b :: ks) h'' ks') : Calls grow srt h ks h'' ks'
  | other {h h' h'' : Heap} {ks ks' : List HBlame} (b : HBlame) (hu : Unchanged h h') (hb : h'.Valid b)
      (hr : Calls grow srt h' (b :: ks) h'' ks') : Calls grow srt h ks h'' ks'

/-- C54, one `Apply`: no object that existed before the call changes, every blame held before still shows the same lines,
and the new blame shows what the value-level `Apply` of the other theorems returns. -/
theorem C54_apply (grow : Nat → Nat) (srt : List Hunk → List Hunk) (h h' : Heap) (file b : HBlame) (d : Diff) (c : Str)
    (hf : h.Valid file) (hc : hApply grow srt h file d c = .ok (h', b)) :
    Unchanged h h' ∧ (∀ old, h.Valid old → h'.Valid old ∧ h'.view old = h.view old) ∧
    h'.Valid b ∧ apply srt (h.view file) d c = .ok (h'.view b) := by
  have hs := hApply_sim grow srt h file d c hf
  rw [hc] at hs
  cases ha : apply srt (h.view file) d c with
  | error e => rw [ha] at hs; exact hs.elim
  | ok v =>
    rw [ha] at hs
    obtain ⟨h1, h2, h3, _⟩ := hs
    exact ⟨h1, fun old ho => ⟨h1.validSlice ho, h1.view ho⟩, h2, by rw [h3]⟩

/-- C54, one `ApplyMerge`. -/
theorem C54_merge (grow : Nat → Nat) (srt : List Hunk → List Hunk) (h h' : Heap) (ps : List HBlame) (b : HBlame)
    (ds : List Diff) (c : Str) (hp : ∀ p ∈ ps, h.Valid p) (hc : hApplyMerge grow srt h ps ds c = .ok (h', b)) :
    Unchanged h h' ∧ (∀ old, h.Valid old → h'.Valid old ∧ h'.view old = h.view old) ∧
    h'.Valid b ∧ applyMerge srt (ps.map h.view) ds c = .ok (h'.view b) := by
  have hs := hApplyMerge_sim grow srt h ps ds c hp
  rw [hc] at hs
  cases ha : applyMerge srt (ps.map h.view) ds c with
  | error e => rw [ha] at hs; exact hs.elim
  | ok v =>
    rw [ha] at hs
    obtain ⟨h1, h2, h3⟩ := hs
    exact ⟨h1, fun old ho => ⟨h1.validSlice ho, h1.view ho⟩, h2, by rw [h3]⟩

/-- The pointer-level functions fail exactly when the value-level ones do, with the same panic. -/
theorem C54_same_failures (grow : Nat → Nat) (srt : List Hunk → List Hunk) (h : Heap) (c : Str) :
    (∀ file d, h.Valid file →
      ∀ e, hApply grow srt h file d c = .error e ↔ apply srt (h.view file) d c = .error e) ∧
    (∀ ps ds, (∀ p ∈ ps, h.Valid p) →
      ∀ e, hApplyMerge grow srt h ps ds c = .error e ↔ applyMerge srt (ps.map h.view) ds c = .error e) := by
  refine ⟨fun file d hf e => ?_, fun ps ds hp e => ?_⟩
  · have hs := hApply_sim grow srt h file d c hf
    cases ha : apply srt (h.view file) d c <;> cases hb : hApply grow srt h file d c <;> rw [ha, hb] at hs
    · simp only [GoRel] at hs; simp [hs]
    · exact hs.elim
    · exact hs.elim
    · simp
  · have hs := hApplyMerge_sim grow srt h ps ds c hp
    cases ha : applyMerge srt (ps.map h.view) ds c <;> cases hb : hApplyMerge grow srt h ps ds c <;> rw [ha, hb] at hs
    · simp only [GoRel] at hs; simp [hs]
    · exact hs.elim
    · exact hs.elim
    · simp

/-- C54, whole histories: however many patches and merges follow, every blame obtained at any time keeps showing the same
lines with the same commits, and no buffer, line object or array that existed is ever written. -/
theorem C54_history (grow : Nat → Nat) (srt : List Hunk → List Hunk) (h h' : Heap) (ks ks' : List HBlame)
    (hk : ∀ b ∈ ks, h.Valid b) (hr : Calls grow srt h ks h' ks') :
    Unchanged h h' ∧ ∀ b ∈ ks, b ∈ ks' ∧ h'.Valid b ∧ h'.view b = h.view b := by
  have key : Unchanged h h' ∧ (∀ b ∈ ks, b ∈ ks') := by
    induction hr with
    | done h ks => exact ⟨Unchanged.refl h, fun _ hb => hb⟩
    | apply file b d c hf hc hr ih =>
      obtain ⟨h1, _, h3, _⟩ := C54_apply grow srt _ _ file b d c (hk file hf) hc
      obtain ⟨i1, i2⟩ := ih (fun x hx => by
        rcases List.mem_cons.1 hx with rfl | hx
        · exact h3
        · exact h1.validSlice (hk x hx))
      exact ⟨h1.trans i1, fun x hx => i2 x (List.mem_cons_of_mem _ hx)⟩
    | merge ps b ds c hf hc hr ih =>
      obtain ⟨h1, _, h3, _⟩ := C54_merge grow srt _ _ ps b ds c (fun p hp => hk p (hf p hp)) hc
      obtain ⟨i1, i2⟩ := ih (fun x hx => by
        rcases List.mem_cons.1 hx with rfl | hx
        · exact h3
        · exact h1.validSlice (hk x hx))
      exact ⟨h1.trans i1, fun x hx => i2 x (List.mem_cons_of_mem _ hx)⟩
    | other b hu hb hr ih =>
      obtain ⟨i1, i2⟩ := ih (fun x hx => by
        rcases List.mem_cons.1 hx with rfl | hx
        · exact hb
        · exact hu.validSlice (hk x hx))
      exact ⟨hu.trans i1, fun x hx => i2 x (List.mem_cons_of_mem _ hx)⟩
  exact ⟨key.1, fun b hb => ⟨key.2 b hb, key.1.validSlice (hk b hb), key.1.view (hk b hb)⟩⟩

/-! Non-vacuity: a memory with a two-line blame, a patch applied to it, and a merge of the patched file with itself whose
first line is taken over by a copy. -/

def exHeap : Heap where
  bufs := [b!"one", b!"two"]
  lines := [{ buf := 0, commit := b!"c1" }, { buf := 1, commit := b!"c1" }]
  arrs := [[0, 1, 0, 0]]

def exHB : HBlame where
  commit := b!"c1"
  lines := { arr := some 0, len := 2 }

def exPatch : Diff where
  path := b!"f"
  hunks := [{ locations := [{ op := 45, offset := 1, lines := 2 }], data := b!" one\n+new\n-two\n" }]

example : exHeap.Valid exHB := by
  refine ⟨by decide, fun a ha => by cases ha; decide, ?_⟩
  intro p hp
  have : p = 0 ∨ p = 1 := by
    have : exHeap.elems exHB.lines = [0, 1] := rfl
    rw [this] at hp; simpa using hp
  rcases this with rfl | rfl
  · exact ⟨_, rfl, by decide⟩
  · exact ⟨_, rfl, by decide⟩

def exHeap2 : Heap where
  bufs := [b!"one", b!"two", b!"-two", b!"new"]
  lines := exHeap.lines ++ [{ buf := 3, commit := b!"c2" }]
  arrs := [[0, 1, 0, 0], [0, 2]]

def exHB2 : HBlame where
  commit := b!"c2"
  lines := { arr := some 1, len := 2 }

example : hApply (fun _ => 1) id exHeap exHB exPatch b!"c2" = .ok (exHeap2, exHB2) := by decide

example : ∃ h', hApplyMerge (fun _ => 1) id exHeap2 [exHB, exHB] [exPatch, exPatch] b!"m" = .ok (h', { commit := b!"m", lines := { arr := some 2, len := 2 } })
    ∧ (h'.view { commit := b!"m", lines := { arr := some 2, len := 2 } }).lines
      = [{ line := b!"one", commit := b!"c1" }, { line := b!"new", commit := b!"m" }]
    ∧ h'.lines.length = 6 := by
  refine ⟨_, rfl, ?_⟩
  decide

end Ripsrc
