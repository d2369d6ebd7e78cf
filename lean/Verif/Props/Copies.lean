import Verif.Props.ProcessState
import Verif.Props.ExHistory
/-!
# C76: files that git prints as copies (`diff.renames=copies`)

A copy is one of the kinds of change of a history (`Spec.Kind.copy`), so everything proved about histories (C25-C33, C57, C65, C75, C78, …) is about histories with copies as well. Here is what it means for
the copied file.
-/
namespace Ripsrc
open Spec

/-- **C76 (attribution of copies).** A commit `c` with one parent `q`; its diff shows the text file `dst` as a copy of `src`, with or without changes; the names have no space (`Kind.Ok`). The run reports `dst` with a blame whose
lines are those of the file: a line that the diff adds names `c`, a line that was in `src` names the commit in which it was last changed there. -/
theorem C76_copy_attribution {env : Env} {G : Str → Str → List Str} {m : GoMap Str (List Str)} {order : List (Str × List Str)} {H : History}
    (h : Setting env H G m order) {es : List LogEntry} (hlog : LogOf H es) (hne : H ≠ []) (read : Str → Go Repo) :
    ∃ log, parseLog (logText es) = .ok log ∧
      let out := run env {} read (Graph.newFromMap m order) log
      out.fault = none ∧ out.sent.length = H.length ∧
      ∀ (i : Nat) c q cs f src dst n, H[i]? = some c → c.parents = [q] → c.diffs = [cs] → f ∈ cs → f.kind = .copy src dst → ¬ IsBin H q src → f.body.isBinary = false →
        c.tree dst = some n →
        ∃ res b, out.sent[i]? = some res ∧ GoMap.get res.files dst = some b ∧ b.isBinary = false ∧ HasContent b n ∧
          ∀ (j : Nat) (l : Line), b.lines[j]? = some l →
            (f.body.source j = none → l.commit = c.hash) ∧ (∀ k, f.body.source j = some k → Origin H G q src k l.commit) := by
  obtain ⟨log, s, h1, h2, h3⟩ := history_run_all h hlog hne read
  refine ⟨log, h1, by rw [h2], by rw [h2]; exact h3.sentLen, ?_⟩
  rw [h2]
  intro i c q cs f src dst n hi hpar hdiffs hf hkind hbin hbody hn
  have hc : c ∈ H := List.mem_of_getElem? hi
  have hnext : f.kind.next = dst := by rw [hkind]; rfl
  have hprev : f.kind.prev = src := by rw [hkind]; rfl
  obtain ⟨l1, l2, hl⟩ := List.append_of_mem hc
  have hd : Describes (History.treeOf l1 q) c.tree cs := (history_ok_at (a := l1) (c := c) (r := l2) (hl ▸ h.history)).diffs (q, cs) (by rw [hpar, hdiffs]; simp)
  have hfok := hd.ok f hf
  have hk : NameOk src ∧ NameOk dst := by
    have := hfok.1
    rw [hkind] at this
    exact ⟨this.1, this.2.1⟩
  have hreg : c.Regular := by rw [HCommit.Regular, hpar]; exact Nat.le_refl 1
  have hch : changeOf cs dst = some f := hnext ▸ changeOf_of_mem hd.once hf (by rw [hnext]; exact hk.2.ne)
  have hw : c.Writes H dst := ⟨hk.2.ne, ⟨cs, by rw [hdiffs]; simp, by rw [hch]; simp⟩, .inl hreg⟩
  have hlt : i < s.sent.length := by rw [h3.sentLen]; exact (List.getElem?_eq_some_iff.1 hi).1
  obtain ⟨b, n', k1, k2, k3⟩ := (h3.sentOk i c s.sent[i] hi (List.getElem?_eq_getElem hlt)).written dst hw (.inl hreg)
  rw [hn] at k2
  cases k2
  have hnb : ¬ IsBin H c.hash dst := by
    intro hb
    rcases isBin_regular h.history hc hreg hdiffs hb with ⟨g, hg, hg'⟩ | ⟨hg, _⟩
    · rw [hch] at hg
      cases hg
      rcases hg' with hg' | ⟨q', hq', _, _, _, hg'⟩
      · rw [hg'] at hbody; cases hbody
      · rw [hpar] at hq'
        cases hq'
        exact hbin (hprev ▸ hg')
    · rw [hch] at hg; cases hg
  have hbf : b.isBinary = false := by
    cases hb : b.isBinary with
    | false => rfl
    | true => exact absurd (k3.binary.1 hb) hnb
  obtain ⟨m1, m2⟩ := Right.content k3 hbf
  refine ⟨s.sent[i], b, List.getElem?_eq_getElem hlt, k1, hbf, m1, fun j l hjl => ?_⟩
  have ho := m2 j l hjl
  have hpb : f.kind.prev ≠ [] → ∀ x ∈ c.parents, ¬ IsBin H x f.kind.prev := by
    intro _ x hx
    rw [hpar, List.mem_singleton] at hx
    rw [hx, hprev]
    exact hbin
  refine ⟨fun hs => origin_unique h.history ho (.added hc hreg hdiffs hnb hch hpb hs), fun k hs => ?_⟩
  revert ho
  generalize l.commit = lc
  generalize hh : c.hash = ch
  intro ho
  cases ho with
  | @added c' cs' f' _ _ hm hr hd' _ hc' _ hs' =>
    have := hash_inj h.history hc hm hh
    subst this
    rw [hdiffs] at hd'; cases hd'
    rw [hch] at hc'; cases hc'
    rw [hs] at hs'; cases hs'
  | @kept c' cs' f' _ q' i' _ o' hm hp' hd' _ hc' _ _ hs' ho' =>
    have := hash_inj h.history hc hm hh
    subst this
    rw [hdiffs] at hd'; cases hd'
    rw [hch] at hc'; cases hc'
    rw [hs] at hs'; cases hs'
    rw [hpar] at hp'; cases hp'
    exact hprev ▸ ho'
  | @blamed c' cs' f' _ q' _ o' hm hp' hd' _ hc' _ hb' _ =>
    have := hash_inj h.history hc hm hh
    subst this
    rw [hdiffs] at hd'; cases hd'
    rw [hch] at hc'; cases hc'
    rw [hpar] at hp'; cases hp'
    exact absurd (hprev ▸ hb') hbin
  | untouched hm hp' hd' _ hc' =>
    have := hash_inj h.history hc hm hh
    subst this
    rw [hdiffs] at hd'; cases hd'
    rw [hch] at hc'; cases hc'
  | mergeSame hm hr => have := hash_inj h.history hc hm hh; subst this; exact absurd hreg hr
  | mergeUntouched hm hr => have := hash_inj h.history hc hm hh; subst this; exact absurd hreg hr
  | mergeKept hm hr => have := hash_inj h.history hc hm hh; subst this; exact absurd hreg hr
  | mergeAdded hm hr => have := hash_inj h.history hc hm hh; subst this; exact absurd hreg hr

/-! ### Example: `e2` copies `f` to `ä` and appends a line -/

namespace ExCopy
open Ex

/-- `ä`, as git spells it. -/
def dst : Str := b!"\\303\\244"

def copyF : FileChange where
  kind := .copy b!"f" dst
  before := [b!"similarity index 66%"]
  after := [b!"index 7898192..422c2b7 100644"]
  body := .text { segs := [([], [.edit (.keep b!"a"), .edit (.add b!"y")])], tail := [] } (fun _ => [])

def t2 : List (Str × List Str) := [(b!"f", [b!"a"]), (dst, [b!"a", b!"y"])]

def x1 : HCommit where
  hash := b!"e1"
  parents := []
  tree := assocTree t1
  diffs := [[createF b!"f" [b!"a"]]]

def x2 : HCommit where
  hash := b!"e2"
  parents := [b!"e1"]
  tree := assocTree t2
  diffs := [[copyF]]

def hist : History := [x1, x2]

theorem okC : copyF.Ok := by
  refine ⟨⟨?_, ?_, by decide, by decide⟩, ?_, by simpa [copyF] using other2, ⟨by decide, by decide⟩, by decide⟩
  · decide
  · decide
  · intro l hl
    simp only [copyF, List.mem_singleton] at hl
    subst hl
    exact ⟨by decide, .inr (.inr (.inr (.inl ⟨_, rfl⟩)))⟩

theorem d2 : Describes (assocTree t1) (assocTree t2) [copyF] :=
  describes_assoc (by simpa using okC) (by decide) (by decide) (by simp only [List.mem_singleton, forall_eq]; exact ⟨rfl, rfl, by decide⟩)
    (by decide) (by decide) (by simp) (by decide)

theorem history_ok : History.Ok [] hist := by
  refine ⟨⟨by simp, by simp [x1], by simp [x1], pathsOk rfl (by decide), fun _ => ⟨_, rfl, d1⟩, fun h => absurd rfl h, by simp [x1]⟩, ?_⟩
  refine ⟨⟨by simp [x1, x2], by simp [x1, x2], by simp [x1, x2], pathsOk rfl (by decide), fun h => absurd h (by simp [x2]), fun _ => rfl, ?_⟩, trivial⟩
  intro x hx
  simp only [x2, List.zip_cons_cons, List.zip_nil_right, List.mem_singleton] at hx
  subst hx
  exact d2

theorem log_ok : LogOf hist [entryOf b!"e1" none [createF b!"f" [b!"a"]], entryOf b!"e2" none [copyF]] := by
  have e1 : EntryFor x1 none [createF b!"f" [b!"a"]] (entryOf b!"e1" none [createF b!"f" [b!"a"]]) :=
    ⟨entryOf_ok (hash := b!"e1") (by decide) (by simp) (show 7 + 2 < logMaxLine by decide) (by simpa using ok1), rfl, rfl, rfl⟩
  have e2 : EntryFor x2 none [copyF] (entryOf b!"e2" none [copyF]) :=
    ⟨entryOf_ok (hash := b!"e2") (by decide) (by simp) (show 7 + 2 < logMaxLine by decide) (by simpa using okC), rfl, rfl, rfl⟩
  exact .cons (c := x1) (.inl ⟨by simp [HCommit.Regular, x1], _, _, rfl, e1, rfl⟩)
    (.cons (c := x2) (.inl ⟨by simp [HCommit.Regular, x2], _, _, rfl, e2, rfl⟩) .nil)

/-- Nothing is printed as binary. -/
theorem no_bin (h p : Str) : ¬ IsBin hist h p :=
  no_binary (by decide) h p

/-- `git blame` is never asked. -/
def env : Env where
  srt := isort hunkLe
  order := fun _ _ l => l
  blameOut := fun _ _ => none

def parents : GoMap Str (List Str) := [(b!"e1", []), (b!"e2", [b!"e1"])]

theorem setting : Setting env hist (fun _ _ => []) parents parents := by
  refine ⟨isort_sortsHunks, fun _ _ _ => .refl _, history_ok, ⟨?_, by simp⟩, by decide, .refl _, by simp [hist, x1, x2, parents, GoMap.get]⟩
  rintro c _ p n _ ⟨_, q, _, _, _, _, _, _, hb, _⟩
  exact absurd hb (no_bin _ _)

/-- The hypotheses are met: of the two lines that are reported for `ä` in `e2`, the one that was copied names `e1`, the other one `e2`. -/
example : ∃ log, parseLog (logText [entryOf b!"e1" none [createF b!"f" [b!"a"]], entryOf b!"e2" none [copyF]]) = .ok log ∧
    ∃ res b l1 l2, (run env {} (fun _ => .ok []) (Graph.newFromMap parents parents) log).sent[1]? = some res ∧ GoMap.get res.files dst = some b ∧
      b.lines = [l1, l2] ∧ l1.commit = b!"e1" ∧ l2.commit = b!"e2" := by
  obtain ⟨log, h1, _, _, h4⟩ := C76_copy_attribution setting log_ok (by decide) (fun _ => .ok [])
  obtain ⟨res, b, k1, k2, _, ⟨k4, _⟩, k5⟩ := h4 1 x2 b!"e1" [copyF] copyF b!"f" dst [b!"a", b!"y"] rfl rfl rfl (by simp) rfl (no_bin _ _) rfl rfl
  obtain ⟨l1, l2, hl⟩ : ∃ l1 l2, b.lines = [l1, l2] := by
    match h : b.lines, k4 with
    | [a, c], _ => exact ⟨a, c, rfl⟩
  have o : Origin hist (fun _ _ => []) b!"e1" b!"f" 0 b!"e1" :=
    .added (c := x1) (cs := [createF b!"f" [b!"a"]]) (f := createF b!"f" [b!"a"]) (by simp [hist]) (by simp [HCommit.Regular, x1]) rfl (no_bin _ _) rfl (fun _ q _ => no_bin _ _) rfl
  refine ⟨log, h1, res, b, l1, l2, k1, k2, hl, ?_, ?_⟩
  · exact origin_unique history_ok ((k5 0 l1 (by rw [hl]; rfl)).2 0 rfl) o
  · exact (k5 1 l2 (by rw [hl]; rfl)).1 rfl

end ExCopy

end Ripsrc
