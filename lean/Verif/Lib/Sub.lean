import Verif.Lib.Regular
/-!
# A history within a larger one, and uniqueness of origins
-/
namespace Ripsrc
open Spec

theorem history_parents {H : History} (h : History.Ok [] H) {c : HCommit} (hc : c ∈ H) {q : Str} (hq : q ∈ c.parents) : ∃ x ∈ H, x.hash = q := by
  obtain ⟨a, r, rfl⟩ := List.append_of_mem hc
  obtain ⟨x, hx, he⟩ := (history_ok_at h).parentsKnown q hq
  exact ⟨x, by simp [hx], he⟩

theorem changesAt_parent {c : HCommit} {p q : Str} {g : Option FileChange} (hm : (q, g) ∈ c.changesAt p) : q ∈ c.parents := by
  obtain ⟨y, hy, he⟩ := List.mem_map.1 hm
  cases he
  exact (List.of_mem_zip hy).1

section
variable {A H : History} (hA : History.Ok [] A) (hH : History.Ok [] H) (hsub : ∀ c ∈ A, c ∈ H)
include hA hH hsub

omit hA in
theorem sub_mem {c : HCommit} (hc : c ∈ H) (hk : ∃ x ∈ A, x.hash = c.hash) : c ∈ A := by
  obtain ⟨x, hx, he⟩ := hk
  rw [hash_inj hH hc (hsub x hx) he.symm]
  exact hx

theorem sub_treeOf {q : Str} (hq : ∃ x ∈ A, x.hash = q) : H.treeOf q = A.treeOf q := by
  obtain ⟨x, hx, rfl⟩ := hq
  rw [treeOf_of_mem hA hx, treeOf_of_mem hH (hsub x hx)]

omit hA hH in
theorem sub_isBin {q p : Str} (h : IsBin A q p) : IsBin H q p := by
  induction h with
  | change a b c d e f => exact .change (hsub _ a) b c d e f
  | moved a b c d e f g h _ ih => exact .moved (hsub _ a) b c d e f g h ih
  | untouched a b c d _ ih => exact .untouched (hsub _ a) b c d ih
  | mergeChange a b c d e => exact .mergeChange (hsub _ a) b c d e
  | mergeParent a b c d e _ ih => exact .mergeParent (hsub _ a) b c d e ih
  | mergeSame a b c d _ ih => exact .mergeSame (hsub _ a) b c d ih
  | mergeUntouched a b c d _ ih => exact .mergeUntouched (hsub _ a) b c d ih

theorem isBin_sub {q p : Str} (hq : ∃ x ∈ A, x.hash = q) : IsBin A q p ↔ IsBin H q p := by
  refine ⟨sub_isBin hsub, fun h => ?_⟩
  induction h with
  | change a b c d e f => exact .change (sub_mem hH hsub a hq) b c d e f
  | moved a b c d e f g h _ ih =>
    have hc := sub_mem hH hsub a hq
    exact .moved hc b c d e f g h (ih (history_parents hA hc (by rw [b]; simp)))
  | untouched a b c d _ ih =>
    have hc := sub_mem hH hsub a hq
    exact .untouched hc b c d (ih (history_parents hA hc (by rw [b]; simp)))
  | mergeChange a b c d e => exact .mergeChange (sub_mem hH hsub a hq) b c d e
  | mergeParent a b c d e _ ih =>
    have hc := sub_mem hH hsub a hq
    exact .mergeParent hc b c d e (ih (history_parents hA hc (changesAt_parent d)))
  | mergeSame a b c d _ ih =>
    have hc := sub_mem hH hsub a hq
    exact .mergeSame hc b c d (ih (history_parents hA hc (changesAt_parent (List.mem_of_find?_eq_some d))))
  | mergeUntouched a b c d _ ih =>
    have hc := sub_mem hH hsub a hq
    exact .mergeUntouched hc b c d (ih (history_parents hA hc (List.mem_of_getLast? d)))

theorem sub_origin {G : Str → Str → List Str} {q p : Str} {j : Nat} {o : Str} (hq : ∃ x ∈ A, x.hash = q) (h : Origin A G q p j o) :
    Origin H G q p j o := by
  have nb : ∀ {q p : Str}, (∃ x ∈ A, x.hash = q) → ¬ IsBin A q p → ¬ IsBin H q p := fun hq hn hb => hn ((isBin_sub hA hH hsub hq).2 hb)
  induction h with
  | @added c cs f p j a b c' d e g h =>
    refine .added (hsub _ a) b c' (nb hq d) e (fun hp q' hq' hb => g hp q' hq' ?_) h
    exact (isBin_sub hA hH hsub (history_parents hA a hq')).2 hb
  | kept a b c d e f g h _ ih =>
    have hp := history_parents hA a (q := _) (by rw [b]; exact List.mem_singleton.2 rfl)
    exact .kept (hsub _ a) b c (nb hq d) e f (nb hp g) h (ih hp)
  | blamed a b c d e f g h => exact .blamed (hsub _ a) b c (nb hq d) e f (sub_isBin hsub g) h
  | untouched a b c d e _ ih =>
    have hp := history_parents hA a (q := _) (by rw [b]; exact List.mem_singleton.2 rfl)
    exact .untouched (hsub _ a) b c (nb hq d) e (ih hp)
  | mergeSame a b c d e _ ih =>
    exact .mergeSame (hsub _ a) b (nb hq c) d e (ih (history_parents hA a (changesAt_parent (List.mem_of_find?_eq_some e))))
  | mergeUntouched a b c d e _ ih =>
    exact .mergeUntouched (hsub _ a) b (nb hq c) d e (ih (history_parents hA a (List.mem_of_getLast? e)))
  | @mergeKept c p pre q f post i j o a b c' d e f' g _ ih =>
    have hm : (q, some f) ∈ c.changesAt p := by rw [e]; exact List.mem_append_right _ (List.mem_cons_self ..)
    exact .mergeKept (hsub _ a) b (nb hq c') d e f' g (ih (history_parents hA a (changesAt_parent hm)))
  | mergeAdded a b c d => exact .mergeAdded (hsub _ a) b (nb hq c) d

theorem sub_right {G : Str → Str → List Str} {q p : Str} {n : List Str} {b : Blame} (hq : ∃ x ∈ A, x.hash = q) (h : Right A G q p n b) :
    Right H G q p n b :=
  ⟨h.binary.trans (isBin_sub hA hH hsub hq), h.length, fun hb j l hl => ⟨(h.line hb j l hl).1, sub_origin hA hH hsub hq (h.line hb j l hl).2⟩⟩

theorem sub_rightFiles {G : Str → Str → List Str} {q : Str} {fs : Files} (hq : ∃ x ∈ A, x.hash = q) (h : RightFiles A G q fs) :
    RightFiles H G q fs := by
  intro p n hn
  rw [sub_treeOf hA hH hsub hq] at hn
  obtain ⟨b, h1, h2⟩ := h p n hn
  exact ⟨b, h1, sub_right hA hH hsub hq h2⟩

theorem origin_sub {G : Str → Str → List Str} {q p : Str} {j : Nat} {o : Str} (hq : ∃ x ∈ A, x.hash = q) (h : Origin H G q p j o) :
    Origin A G q p j o := by
  have nb : ∀ {q p : Str}, ¬ IsBin H q p → ¬ IsBin A q p := fun hn hb => hn (sub_isBin hsub hb)
  induction h with
  | @added c cs f p j a b c' d e g h =>
    have hc := sub_mem hH hsub a hq
    exact .added hc b c' (nb d) e (fun hp q' hq' hb => g hp q' hq' (sub_isBin hsub hb)) h
  | kept a b c d e f g h _ ih =>
    have hc := sub_mem hH hsub a hq
    have hp := history_parents hA hc (q := _) (by rw [b]; exact List.mem_singleton.2 rfl)
    exact .kept hc b c (nb d) e f (nb g) h (ih hp)
  | blamed a b c d e f g h =>
    have hc := sub_mem hH hsub a hq
    have hp := history_parents hA hc (q := _) (by rw [b]; exact List.mem_singleton.2 rfl)
    exact .blamed hc b c (nb d) e f ((isBin_sub hA hH hsub hp).2 g) h
  | untouched a b c d e _ ih =>
    have hc := sub_mem hH hsub a hq
    have hp := history_parents hA hc (q := _) (by rw [b]; exact List.mem_singleton.2 rfl)
    exact .untouched hc b c (nb d) e (ih hp)
  | mergeSame a b c d e _ ih =>
    have hc := sub_mem hH hsub a hq
    exact .mergeSame hc b (nb c) d e (ih (history_parents hA hc (changesAt_parent (List.mem_of_find?_eq_some e))))
  | mergeUntouched a b c d e _ ih =>
    have hc := sub_mem hH hsub a hq
    exact .mergeUntouched hc b (nb c) d e (ih (history_parents hA hc (List.mem_of_getLast? e)))
  | @mergeKept c p pre q f post i j o a b c' d e f' g _ ih =>
    have hc := sub_mem hH hsub a hq
    have hm : (q, some f) ∈ c.changesAt p := by rw [e]; exact List.mem_append_right _ (List.mem_cons_self ..)
    exact .mergeKept hc b (nb c') d e f' g (ih (history_parents hA hc (changesAt_parent hm)))
  | mergeAdded a b c d => exact .mergeAdded (sub_mem hH hsub a hq) b (nb c) d

theorem right_sub {G : Str → Str → List Str} {q p : Str} {n : List Str} {b : Blame} (hq : ∃ x ∈ A, x.hash = q) (h : Right H G q p n b) :
    Right A G q p n b :=
  ⟨h.binary.trans (isBin_sub hA hH hsub hq).symm, h.length, fun hb j l hl => ⟨(h.line hb j l hl).1, origin_sub hA hH hsub hq (h.line hb j l hl).2⟩⟩

theorem rightFiles_sub {G : Str → Str → List Str} {q : Str} {fs : Files} (hq : ∃ x ∈ A, x.hash = q) (h : RightFiles H G q fs) :
    RightFiles A G q fs := by
  intro p n hn
  rw [← sub_treeOf hA hH hsub hq] at hn
  obtain ⟨b, h1, h2⟩ := h p n hn
  exact ⟨b, h1, right_sub hA hH hsub hq h2⟩

theorem sub_writes {c : HCommit} (hc : c ∈ A) (p : Str) : c.Writes A p ↔ c.Writes H p := by
  unfold HCommit.Writes
  have key : (∃ q f, (q, some f) ∈ c.changesAt p ∧ (f.body = .binary ∨ f.kind.prev ≠ [] ∧ IsBin A q f.kind.prev)) ↔
      ∃ q f, (q, some f) ∈ c.changesAt p ∧ (f.body = .binary ∨ f.kind.prev ≠ [] ∧ IsBin H q f.kind.prev) := by
    constructor
    · rintro ⟨q, f, h1, h2⟩
      exact ⟨q, f, h1, h2.imp id (fun h => ⟨h.1, sub_isBin hsub h.2⟩)⟩
    · rintro ⟨q, f, h1, h2⟩
      exact ⟨q, f, h1, h2.imp id (fun h => ⟨h.1, (isBin_sub hA hH hsub (history_parents hA hc (changesAt_parent h1))).2 h.2⟩)⟩
  rw [key]

theorem sub_commitOk {G : Str → Str → List Str} {c : HCommit} (hc : c ∈ A) {r r' : Repo} {res : Result} (h : CommitOk A G c r r' res) :
    CommitOk H G c r r' res := by
  refine ⟨h.commit, h.same, ?_, ?_, ?_⟩
  · obtain ⟨fs, h1, h2, h3⟩ := h.files
    exact ⟨fs, h1, sub_rightFiles hA hH hsub ⟨c, hc, rfl⟩ h2, fun p hw hd => h3 p ((sub_writes hA hH hsub hc p).2 hw) hd⟩
  · intro p
    rw [h.paths p, sub_writes hA hH hsub hc p]
  · intro p hd hw
    exact h.removed p hd (fun h' => hw ((sub_writes hA hH hsub hc p).1 h'))

theorem sub_reach {q o : Str} (hq : ∃ x ∈ A, x.hash = q) (h : H.Reach q o) : (∃ x ∈ A, x.hash = o) ∧ A.Reach q o := by
  induction h with
  | refl => exact ⟨hq, .refl⟩
  | tail _ hp ih =>
    obtain ⟨y, hy, he, hpar⟩ := hp
    have hyA := sub_mem hH hsub hy (by obtain ⟨x, hx, hxe⟩ := ih.1; exact ⟨x, hx, hxe.trans he.symm⟩)
    exact ⟨history_parents hA hyA hpar, ih.2.tail ⟨y, hyA, he, hpar⟩⟩

theorem sub_asksBlame {c : HCommit} (hc : c ∈ A) {p : Str} (h : c.AsksBlame A p) : c.AsksBlame H p := by
  obtain ⟨h0, q, cs, f, h1, h2, h3, h4, h5, h6⟩ := h
  exact ⟨h0, q, cs, f, h1, h2, h3, h4, sub_isBin hsub h5, fun h => h6 ((isBin_sub hA hH hsub ⟨c, hc, rfl⟩).2 h)⟩

theorem sub_blameWorks {G : Str → Str → List Str} {out : Str → Str → Option Str} (h : BlameWorks H G out) : BlameWorks A G out :=
  ⟨fun c hc p n hn ha => h.text c (hsub c hc) p n hn (sub_asksBlame hA hH hsub hc ha), fun c hc p o ho => (sub_reach hA hH hsub ⟨c, hc, rfl⟩ (h.ancestors c (hsub c hc) p o ho)).2⟩

end

/-- A line has at most one origin. -/
theorem origin_unique {H : History} (hH : History.Ok [] H) {G : Str → Str → List Str} {c p : Str} {j : Nat} {o o' : Str}
    (h : Origin H G c p j o) (h' : Origin H G c p j o') : o = o' := by
  have reg : ∀ {x : HCommit} {q : Str}, x.parents = [q] → x.Regular := fun hx => by unfold HCommit.Regular; rw [hx]; simp
  induction h generalizing o' with
  | @added c cs f p j hc hr hd hb hf hprev hs =>
    generalize hh : c.hash = ch at h'
    cases h' with
    | added hc' => rfl
    | kept hc' hp' hd' hb' hf' _ _ hs' _ =>
      have := hash_inj hH hc hc' hh; subst this
      rw [hd] at hd'; cases hd'
      rw [hf] at hf'; cases hf'
      rw [hs] at hs'; cases hs'
    | blamed hc' hp' hd' hb' hf' hpr hbin _ =>
      have := hash_inj hH hc hc' hh; subst this
      rw [hd] at hd'; cases hd'
      rw [hf] at hf'; cases hf'
      exact absurd hbin (hprev hpr _ (by rw [hp']; simp))
    | untouched hc' hp' hd' hb' hf' _ =>
      have := hash_inj hH hc hc' hh; subst this
      rw [hd] at hd'; cases hd'
      rw [hf] at hf'; cases hf'
    | mergeSame hc' hr' => have := hash_inj hH hc hc' hh; subst this; exact absurd hr hr'
    | mergeUntouched hc' hr' => have := hash_inj hH hc hc' hh; subst this; exact absurd hr hr'
    | mergeKept hc' hr' => have := hash_inj hH hc hc' hh; subst this; exact absurd hr hr'
    | mergeAdded hc' hr' => have := hash_inj hH hc hc' hh; subst this; exact absurd hr hr'
  | @kept c cs f p q i j o hc hp hd hb hf hprev hqb hs ho ih =>
    generalize hh : c.hash = ch at h'
    have hr := reg hp
    cases h' with
    | added hc' hr' hd' hb' hf' hprev' hs' =>
      have := hash_inj hH hc hc' hh; subst this
      rw [hd] at hd'; cases hd'
      rw [hf] at hf'; cases hf'
      rw [hs] at hs'; cases hs'
    | kept hc' hp' hd' hb' hf' _ _ hs' ho' =>
      have := hash_inj hH hc hc' hh; subst this
      rw [hd] at hd'; cases hd'
      rw [hf] at hf'; cases hf'
      rw [hs] at hs'; cases hs'
      rw [hp] at hp'; cases hp'
      exact ih ho'
    | blamed hc' hp' hd' hb' hf' hpr hbin _ =>
      have := hash_inj hH hc hc' hh; subst this
      rw [hd] at hd'; cases hd'
      rw [hf] at hf'; cases hf'
      rw [hp] at hp'; cases hp'
      exact absurd hbin hqb
    | untouched hc' hp' hd' hb' hf' _ =>
      have := hash_inj hH hc hc' hh; subst this
      rw [hd] at hd'; cases hd'
      rw [hf] at hf'; cases hf'
    | mergeSame hc' hr' => have := hash_inj hH hc hc' hh; subst this; exact absurd hr hr'
    | mergeUntouched hc' hr' => have := hash_inj hH hc hc' hh; subst this; exact absurd hr hr'
    | mergeKept hc' hr' => have := hash_inj hH hc hc' hh; subst this; exact absurd hr hr'
    | mergeAdded hc' hr' => have := hash_inj hH hc hc' hh; subst this; exact absurd hr hr'
  | @blamed c cs f p q j o hc hp hd hb hf hprev hqb hg =>
    generalize hh : c.hash = ch at h'
    have hr := reg hp
    cases h' with
    | added hc' hr' hd' hb' hf' hprev' hs' =>
      have := hash_inj hH hc hc' hh; subst this
      rw [hd] at hd'; cases hd'
      rw [hf] at hf'; cases hf'
      exact absurd hqb (hprev' hprev _ (by rw [hp]; simp))
    | kept hc' hp' hd' hb' hf' _ hqb' hs' ho' =>
      have := hash_inj hH hc hc' hh; subst this
      rw [hd] at hd'; cases hd'
      rw [hf] at hf'; cases hf'
      rw [hp] at hp'; cases hp'
      exact absurd hqb hqb'
    | blamed hc' hp' hd' hb' hf' hpr hbin hg' =>
      have := hash_inj hH hc hc' hh; subst this
      rw [hg] at hg'; cases hg'
      rfl
    | untouched hc' hp' hd' hb' hf' _ =>
      have := hash_inj hH hc hc' hh; subst this
      rw [hd] at hd'; cases hd'
      rw [hf] at hf'; cases hf'
    | mergeSame hc' hr' => have := hash_inj hH hc hc' hh; subst this; exact absurd hr hr'
    | mergeUntouched hc' hr' => have := hash_inj hH hc hc' hh; subst this; exact absurd hr hr'
    | mergeKept hc' hr' => have := hash_inj hH hc hc' hh; subst this; exact absurd hr hr'
    | mergeAdded hc' hr' => have := hash_inj hH hc hc' hh; subst this; exact absurd hr hr'
  | @untouched c cs p q j o hc hp hd hb hf ho ih =>
    generalize hh : c.hash = ch at h'
    have hr := reg hp
    cases h' with
    | added hc' hr' hd' hb' hf' hprev' hs' =>
      have := hash_inj hH hc hc' hh; subst this
      rw [hd] at hd'; cases hd'
      rw [hf] at hf'; cases hf'
    | kept hc' hp' hd' hb' hf' _ hqb' hs' ho' =>
      have := hash_inj hH hc hc' hh; subst this
      rw [hd] at hd'; cases hd'
      rw [hf] at hf'; cases hf'
    | blamed hc' hp' hd' hb' hf' hpr hbin hg' =>
      have := hash_inj hH hc hc' hh; subst this
      rw [hd] at hd'; cases hd'
      rw [hf] at hf'; cases hf'
    | untouched hc' hp' hd' hb' hf' ho' =>
      have := hash_inj hH hc hc' hh; subst this
      rw [hp] at hp'; cases hp'
      exact ih ho'
    | mergeSame hc' hr' => have := hash_inj hH hc hc' hh; subst this; exact absurd hr hr'
    | mergeUntouched hc' hr' => have := hash_inj hH hc hc' hh; subst this; exact absurd hr hr'
    | mergeKept hc' hr' => have := hash_inj hH hc hc' hh; subst this; exact absurd hr hr'
    | mergeAdded hc' hr' => have := hash_inj hH hc hc' hh; subst this; exact absurd hr hr'
  | @mergeSame c p q j o hc hr hb hx hf ho ih =>
    generalize hh : c.hash = ch at h'
    cases h' with
    | added hc' hr' => have := hash_inj hH hc hc' hh; subst this; exact absurd hr' hr
    | kept hc' hp' => have := hash_inj hH hc hc' hh; subst this; exact absurd (reg hp') hr
    | blamed hc' hp' => have := hash_inj hH hc hc' hh; subst this; exact absurd (reg hp') hr
    | untouched hc' hp' => have := hash_inj hH hc hc' hh; subst this; exact absurd (reg hp') hr
    | mergeSame hc' _ _ _ hf' ho' =>
      have := hash_inj hH hc hc' hh; subst this
      rw [hf] at hf'; cases hf'
      exact ih ho'
    | mergeUntouched hc' _ _ hn =>
      have := hash_inj hH hc hc' hh; subst this
      obtain ⟨x, hx1, hx2⟩ := hx
      exact absurd (hn x hx1) hx2
    | mergeKept hc' _ _ hn =>
      have := hash_inj hH hc hc' hh; subst this
      exact absurd rfl (hn _ (List.mem_of_find?_eq_some hf))
    | mergeAdded hc' _ _ hn =>
      have := hash_inj hH hc hc' hh; subst this
      obtain ⟨g, hg, _⟩ := hn _ (List.mem_of_find?_eq_some hf)
      cases hg
  | @mergeUntouched c p q j o hc hr hb hx hl ho ih =>
    have hlq : ∃ g, (q, g) ∈ c.changesAt p := by
      obtain ⟨a, r, rfl⟩ := List.append_of_mem hc
      have hcok : c.Ok a := history_ok_at hH
      have hne : c.parents ≠ [] := by intro h; rw [h] at hl; cases hl
      have hlen := hcok.count hne
      obtain ⟨i, hi⟩ := List.mem_iff_getElem?.1 (List.mem_of_getLast? hl)
      have hil := (List.getElem?_eq_some_iff.1 hi).1
      refine ⟨changeOf (c.diffs[i]'(by omega)) p, List.mem_map.2 ⟨(q, c.diffs[i]'(by omega)), ?_, rfl⟩⟩
      rw [List.mem_iff_getElem?]
      exact ⟨i, by rw [List.getElem?_zip_eq_some]; exact ⟨hi, List.getElem?_eq_getElem (by omega)⟩⟩
    generalize hh : c.hash = ch at h'
    cases h' with
    | added hc' hr' => have := hash_inj hH hc hc' hh; subst this; exact absurd hr' hr
    | kept hc' hp' => have := hash_inj hH hc hc' hh; subst this; exact absurd (reg hp') hr
    | blamed hc' hp' => have := hash_inj hH hc hc' hh; subst this; exact absurd (reg hp') hr
    | untouched hc' hp' => have := hash_inj hH hc hc' hh; subst this; exact absurd (reg hp') hr
    | mergeSame hc' _ _ hn =>
      have := hash_inj hH hc hc' hh; subst this
      obtain ⟨x, hx1, hx2⟩ := hn
      exact absurd (hx x hx1) hx2
    | mergeUntouched hc' _ _ _ hl' ho' =>
      have := hash_inj hH hc hc' hh; subst this
      rw [hl] at hl'; cases hl'
      exact ih ho'
    | mergeKept hc' _ _ _ he =>
      have := hash_inj hH hc hc' hh; subst this
      have := hx _ (by rw [he]; exact List.mem_append_right _ (List.mem_cons_self ..))
      cases this
    | mergeAdded hc' _ _ hn =>
      have := hash_inj hH hc hc' hh; subst this
      obtain ⟨g, hg⟩ := hlq
      obtain ⟨g', hg', _⟩ := hn _ hg
      have := hx _ hg
      simp only at this hg'
      rw [this] at hg'; cases hg'
  | @mergeKept c p pre q f post i j o hc hr hb hx he hpre hs ho ih =>
    have hmem : (q, some f) ∈ c.changesAt p := by rw [he]; exact List.mem_append_right _ (List.mem_cons_self ..)
    generalize hh : c.hash = ch at h'
    cases h' with
    | added hc' hr' => have := hash_inj hH hc hc' hh; subst this; exact absurd hr' hr
    | kept hc' hp' => have := hash_inj hH hc hc' hh; subst this; exact absurd (reg hp') hr
    | blamed hc' hp' => have := hash_inj hH hc hc' hh; subst this; exact absurd (reg hp') hr
    | untouched hc' hp' => have := hash_inj hH hc hc' hh; subst this; exact absurd (reg hp') hr
    | mergeSame hc' _ _ _ hf =>
      have := hash_inj hH hc hc' hh; subst this
      exact absurd rfl (hx _ (List.mem_of_find?_eq_some hf))
    | mergeUntouched hc' _ _ hn =>
      have := hash_inj hH hc hc' hh; subst this
      have := hn _ hmem
      cases this
    | @mergeKept c' _ pre' q' f' post' i' _ _ hc' _ _ _ he' hpre' hs' ho' =>
      have := hash_inj hH hc hc' hh; subst this
      have hlt : ∀ {pre pre' post post' : List (Str × Option FileChange)} {q q' : Str} {f f' : FileChange} {i i' : Nat},
          pre ++ (q, some f) :: post = pre' ++ (q', some f') :: post' →
          (∀ x ∈ pre, ∀ g, x.2 = some g → g.body.source j = none) → (∀ x ∈ pre', ∀ g, x.2 = some g → g.body.source j = none) →
          f.body.source j = some i → f'.body.source j = some i' → q = q' ∧ f = f' := by
        intro pre
        induction pre with
        | nil =>
          intro pre' post post' q q' f f' i i' h1 _ h3 h4 h5
          cases pre' with
          | nil => simp at h1; exact ⟨h1.1.1, h1.1.2⟩
          | cons x pre' =>
            simp only [List.nil_append, List.cons_append, List.cons.injEq] at h1
            have := h3 x (by simp) f (by rw [← h1.1])
            rw [this] at h4; cases h4
        | cons x pre ihp =>
          intro pre' post post' q q' f f' i i' h1 h2 h3 h4 h5
          cases pre' with
          | nil =>
            simp only [List.nil_append, List.cons_append, List.cons.injEq] at h1
            have := h2 x (by simp) f' (by rw [h1.1])
            rw [this] at h5; cases h5
          | cons y pre' =>
            simp only [List.cons_append, List.cons.injEq] at h1
            exact ihp h1.2 (fun x hx => h2 x (by simp [hx])) (fun x hx => h3 x (by simp [hx])) h4 h5
      obtain ⟨hq, hf⟩ := hlt (he.symm.trans he') hpre hpre' hs hs'
      subst hq hf
      rw [hs] at hs'; cases hs'
      exact ih ho'
    | mergeAdded hc' _ _ hn =>
      have := hash_inj hH hc hc' hh; subst this
      obtain ⟨g, hg, hgs⟩ := hn _ hmem
      cases hg
      rw [hs] at hgs; cases hgs
  | @mergeAdded c p j hc hr hb hx =>
    generalize hh : c.hash = ch at h'
    cases h' with
    | added hc' hr' => rfl
    | kept hc' hp' => have := hash_inj hH hc hc' hh; subst this; exact absurd (reg hp') hr
    | blamed hc' hp' => have := hash_inj hH hc hc' hh; subst this; exact absurd (reg hp') hr
    | untouched hc' hp' => have := hash_inj hH hc hc' hh; subst this; exact absurd (reg hp') hr
    | mergeSame hc' _ _ _ hf =>
      have := hash_inj hH hc hc' hh; subst this
      obtain ⟨g, hg, _⟩ := hx _ (List.mem_of_find?_eq_some hf)
      cases hg
    | @mergeUntouched c' _ q _ _ hc' _ _ hn hl _ =>
      have := hash_inj hH hc hc' hh; subst this
      cases hca : c.changesAt p with
      | nil =>
        exfalso
        obtain ⟨a, r, rfl⟩ := List.append_of_mem hc
        have hcok : c.Ok a := history_ok_at hH
        have hne : c.parents ≠ [] := by intro h; rw [h] at hl; cases hl
        have hlen := hcok.count hne
        unfold HCommit.changesAt at hca
        rw [List.map_eq_nil_iff] at hca
        have := congrArg List.length hca
        simp only [List.length_zip, List.length_nil] at this
        have := List.length_pos_iff.2 hne
        omega
      | cons y ys =>
        obtain ⟨g, hg, _⟩ := hx y (by rw [hca]; simp)
        rw [hn y (by rw [hca]; simp)] at hg
        cases hg
    | @mergeKept c' _ pre' q' f' post' i' _ _ hc' _ _ _ he' hpre' hs' ho' =>
      have := hash_inj hH hc hc' hh; subst this
      obtain ⟨g, hg, hgs⟩ := hx (q', some f') (by rw [he']; exact List.mem_append_right _ (List.mem_cons_self ..))
      cases hg
      rw [hs'] at hgs; cases hgs
    | mergeAdded => rfl

end Ripsrc
